import Verif.Lemmas.Regex
import Verif.Model.Parser
/-
What captured groups can contain.
-/
namespace Verif

/-- The groups of an expression. -/
def Re.groups : Re → List (Str × Re)
  | .eps => []
  | .cls _ => []
  | .seq a b => a.groups ++ b.groups
  | .alt a b => a.groups ++ b.groups
  | .star a => a.groups
  | .grp n a => (n, a) :: a.groups
  | .eot => []

/-- The names of the groups. -/
def Re.names : Re → List Str
  | .eps => []
  | .cls _ => []
  | .seq a b => a.names ++ b.names
  | .alt a b => a.names ++ b.names
  | .star a => a.names
  | .grp n a => n :: a.names
  | .eot => []

theorem Re.names_eq (r : Re) : r.names = r.groups.map (·.1) := by
  induction r <;> simp [Re.names, Re.groups, *]

/-- Matching adds groups, each filled with a match of the group's expression. -/
theorem match_caps {r : Re} {s rest : Str} {c c' : Caps} (h : Re.Match r s rest c c') :
    ∃ new : Caps, c' = new ++ c ∧ ∀ e ∈ new, ∃ a, (e.1, a) ∈ r.groups ∧ ∃ rest c1 c2, Re.Match a e.2 rest c1 c2 := by
  induction h with
  | eps => exact ⟨[], rfl, by simp⟩
  | cls _ => exact ⟨[], rfl, by simp⟩
  | seq _ _ ih1 ih2 =>
    obtain ⟨n1, rfl, h1⟩ := ih1
    obtain ⟨n2, rfl, h2⟩ := ih2
    refine ⟨n2 ++ n1, by simp, ?_⟩
    intro e he
    rcases List.mem_append.mp he with he | he
    · obtain ⟨a, ha, h⟩ := h2 e he; exact ⟨a, by simp [Re.groups, ha], h⟩
    · obtain ⟨a, ha, h⟩ := h1 e he; exact ⟨a, by simp [Re.groups, ha], h⟩
  | altL _ ih =>
    obtain ⟨n, rfl, h⟩ := ih
    exact ⟨n, rfl, fun e he => by obtain ⟨a, ha, h⟩ := h e he; exact ⟨a, by simp [Re.groups, ha], h⟩⟩
  | altR _ ih =>
    obtain ⟨n, rfl, h⟩ := ih
    exact ⟨n, rfl, fun e he => by obtain ⟨a, ha, h⟩ := h e he; exact ⟨a, by simp [Re.groups, ha], h⟩⟩
  | starNil => exact ⟨[], rfl, by simp⟩
  | starCons _ _ _ ih1 ih2 =>
    obtain ⟨n1, rfl, h1⟩ := ih1
    obtain ⟨n2, rfl, h2⟩ := ih2
    refine ⟨n2 ++ n1, by simp, ?_⟩
    intro e he
    rcases List.mem_append.mp he with he | he
    · exact h2 e he
    · exact h1 e he
  | grp hm ih =>
    obtain ⟨n, rfl, h⟩ := ih
    rename_i nm a s rest c
    refine ⟨(nm, s) :: n, by simp, ?_⟩
    intro e he
    rcases List.mem_cons.mp he with rfl | he
    · exact ⟨a, by simp [Re.groups], _, _, _, hm⟩
    · obtain ⟨a, ha, h⟩ := h e he; exact ⟨a, by simp [Re.groups, ha], h⟩
  | eot => exact ⟨[], rfl, by simp⟩

theorem get_append {n : Str} (new c : Caps) (h : ∀ e ∈ new, e.1 ≠ n) : (new ++ c).get n = c.get n := by
  unfold Caps.get
  rw [List.find?_append]
  have : new.find? (fun e => decide (e.1 = n)) = none := by
    rw [List.find?_eq_none]; intro e he; simpa using h e he
  rw [this]; simp

/-- A group that is not in the expression keeps its content. -/
theorem match_get_other {r : Re} {s rest : Str} {c c' : Caps} (h : Re.Match r s rest c c') {n : Str} (hn : n ∉ r.names) : c'.get n = c.get n := by
  obtain ⟨new, rfl, hnew⟩ := match_caps h
  refine get_append new c ?_
  rintro e he rfl
  obtain ⟨a, ha, _⟩ := hnew e he
  exact hn (by rw [Re.names_eq]; exact List.mem_map.mpr ⟨_, ha, rfl⟩)

/-- The content of a group that took part matches the group's expression. -/
theorem match_get {r : Re} {s rest : Str} {c : Caps} (h : Re.Match r s rest [] c) {n : Str} (hn : c.get n ≠ []) :
    ∃ a, (n, a) ∈ r.groups ∧ ∃ rest c1 c2, Re.Match a (c.get n) rest c1 c2 := by
  obtain ⟨new, rfl, hnew⟩ := match_caps h
  rw [List.append_nil] at hn ⊢
  unfold Caps.get at hn ⊢
  cases hf : new.find? (fun e => decide (e.1 = n)) with
  | none => rw [hf] at hn; exact absurd rfl hn
  | some e =>
    have h1 := List.mem_of_find?_eq_some hf
    have h2 := List.find?_some hf
    simp only [decide_eq_true_eq] at h2
    subst h2
    obtain ⟨a, ha, hm⟩ := hnew e h1
    simp only []
    exact ⟨a, ha, hm⟩

theorem matches_sound {r : Re} {s : Str} {c : Caps} (h : r.matches s = some c) : ∃ pre s1 post, s = pre ++ s1 ++ post ∧ Re.Match r s1 post [] c := by
  unfold Re.matches at h
  obtain ⟨m, hm, rfl⟩ := Option.map_eq_some_iff.mp h
  obtain ⟨s1, e, hM, _⟩ := find_sound (pre := m.1) (c := m.2.1) (post := m.2.2) hm
  exact ⟨m.1, s1, m.2.2, e, hM⟩

theorem matches_get {r : Re} {s : Str} {c : Caps} (h : r.matches s = some c) {n : Str} (hn : c.get n ≠ []) :
    ∃ a, (n, a) ∈ r.groups ∧ ∃ rest c1 c2, Re.Match a (c.get n) rest c1 c2 := by
  obtain ⟨_, _, _, _, hm⟩ := matches_sound h
  exact match_get hm hn

/-- Which characters an expression can consume. -/
def Re.Consumes (r : Re) (p : Char → Bool) : Prop := ∀ s rest c c', Re.Match r s rest c c' → ∀ x ∈ s, p x = true

/-- The text of a match is part of the line. -/
theorem matches_sub {r : Re} {s : Str} {c : Caps} (h : r.matches s = some c) {n : Str} : ∀ x ∈ c.get n, x ∈ s := by
  have core : ∀ {r : Re} {s rest : Str} {c c' : Caps}, Re.Match r s rest c c' → ∃ new : Caps, c' = new ++ c ∧ ∀ e ∈ new, ∀ x ∈ e.2, x ∈ s := by
    intro r s rest c c' h
    induction h with
    | eps => exact ⟨[], rfl, by simp⟩
    | cls _ => exact ⟨[], rfl, by simp⟩
    | seq _ _ ih1 ih2 =>
      obtain ⟨n1, rfl, h1⟩ := ih1
      obtain ⟨n2, rfl, h2⟩ := ih2
      refine ⟨n2 ++ n1, by simp, ?_⟩
      intro e he x hx
      rcases List.mem_append.mp he with he | he
      · exact List.mem_append.mpr (.inr (h2 e he x hx))
      · exact List.mem_append.mpr (.inl (h1 e he x hx))
    | altL _ ih => exact ih
    | altR _ ih => exact ih
    | starNil => exact ⟨[], rfl, by simp⟩
    | starCons _ _ _ ih1 ih2 =>
      obtain ⟨n1, rfl, h1⟩ := ih1
      obtain ⟨n2, rfl, h2⟩ := ih2
      refine ⟨n2 ++ n1, by simp, ?_⟩
      intro e he x hx
      rcases List.mem_append.mp he with he | he
      · exact List.mem_append.mpr (.inr (h2 e he x hx))
      · exact List.mem_append.mpr (.inl (h1 e he x hx))
    | grp _ ih =>
      obtain ⟨n, rfl, h⟩ := ih
      rename_i nm a s rest c _
      refine ⟨(nm, s) :: n, by simp, ?_⟩
      intro e he x hx
      rcases List.mem_cons.mp he with rfl | he
      · exact hx
      · exact h e he x hx
    | eot => exact ⟨[], rfl, by simp⟩
  obtain ⟨pre, s1, post, rfl, hm⟩ := matches_sound h
  obtain ⟨new, rfl, hnew⟩ := core hm
  intro x hx
  rw [List.append_nil] at hx
  unfold Caps.get at hx
  cases hf : new.find? (fun e => decide (e.1 = n)) with
  | none => rw [hf] at hx; simp at hx
  | some e =>
    rw [hf] at hx
    have := hnew e (List.mem_of_find?_eq_some hf) x hx
    simp [this]

/-- A non-empty date group gives a date. -/
theorem date_captured {s rest : Str} {c c' : Caps} (h : Re.Match dateRe s rest c c') (hne : s ≠ []) :
    c'.get (str "ymd") ≠ [] ∨ c'.get (str "ym") ≠ [] ∨ c'.get (str "offset") ≠ [] := by
  unfold dateRe at h
  rw [grp_match_iff] at h
  obtain ⟨c2, h, rfl⟩ := h
  have h : Re.Match (.seq (.opt ymdRe) (.opt offsetRe)) s rest c c2 := h
  rw [seq_match_iff] at h
  obtain ⟨s1, s2, c1, rfl, h1, h2⟩ := h
  by_cases hs2 : s2 = []
  · have hs1 : s1 ≠ [] := by rintro rfl; exact hne (by simp [hs2])
    rw [opt_match_iff] at h1
    rcases h1 with h1 | ⟨rfl, _⟩
    · have other : ∀ n, n ∉ (Re.opt offsetRe).names → Caps.get ((str "date", s1 ++ s2) :: c2) n = if n = str "date" then s1 ++ s2 else c1.get n := by
        intro n hn
        by_cases hd : n = str "date"
        · rw [if_pos hd, hd]; simp [Caps.get]
        · rw [if_neg hd, ← match_get_other h2 hn]
          exact get_append [(str "date", s1 ++ s2)] c2 (by intro e he; simp at he; subst he; exact fun e => hd e.symm)
      unfold ymdRe at h1
      rw [alt_match_iff] at h1
      rcases h1 with h1 | h1
      · unfold ymdFull at h1
        rw [grp_match_iff] at h1
        obtain ⟨c3, _, rfl⟩ := h1
        left
        rw [other (str "ymd") (by decide), if_neg (by decide)]
        simpa [Caps.get] using hs1
      · unfold ymdShort at h1
        rw [grp_match_iff] at h1
        obtain ⟨c3, _, rfl⟩ := h1
        right; left
        rw [other (str "ym") (by decide), if_neg (by decide)]
        simpa [Caps.get] using hs1
    · exact absurd rfl hs1
  · rw [opt_match_iff] at h2
    rcases h2 with h2 | ⟨rfl, _⟩
    · unfold offsetRe at h2
      rw [grp_match_iff] at h2
      obtain ⟨c3, _, rfl⟩ := h2
      right; right
      simpa [Caps.get, str] using hs2
    · exact absurd rfl hs2

theorem dateBase_some {today : Today} {c : Caps} (h : c.get (str "ymd") ≠ [] ∨ c.get (str "ym") ≠ [] ∨ c.get (str "offset") ≠ []) :
    ∃ n, mustParseDate today c = .ok n := by
  unfold mustParseDate parseDate dateBase
  by_cases h1 : c.get (str "ymd") ≠ []
  · rw [if_pos h1]; exact ⟨_, rfl⟩
  · rw [if_neg h1]
    by_cases h2 : c.get (str "ym") ≠ []
    · rw [if_pos h2]; exact ⟨_, rfl⟩
    · rw [if_neg h2, if_neg ((h.resolve_left h1).resolve_left h2)]; exact ⟨_, rfl⟩

/-- The date of a transaction line. -/
theorem transaction_date {line : Str} {c : Caps} (today : Today) (h : transactionRe.matches line = some c) (hd : c.get (str "date") ≠ []) :
    ∃ n, mustParseDate today c = .ok n := by
  obtain ⟨pre, s1, post, rfl, hm⟩ := matches_sound h
  have hm : Re.Match (.seq dateRe (.seq (.opt codeRe) (.seq (.opt descriptionRe) (.opt (noteRe (str "shortNote")))))) s1 post [] c := hm
  rw [seq_match_iff] at hm
  obtain ⟨s, t, c1, rfl, h1, h2⟩ := hm
  have hs : c1.get (str "date") = s := by
    unfold dateRe at h1
    rw [grp_match_iff] at h1
    obtain ⟨c2, _, rfl⟩ := h1
    simp [Caps.get]
  rw [match_get_other h2 (by decide), hs] at hd
  refine dateBase_some ?_
  rw [match_get_other h2 (by decide), match_get_other h2 (by decide), match_get_other h2 (by decide)]
  exact date_captured h1 hd

/-- The date of a price line. -/
theorem price_date {line : Str} {c : Caps} (today : Today) (h : priceRe.matches line = some c) (hd : c.get (str "date") ≠ []) :
    ∃ n, mustParseDate today c = .ok n := by
  obtain ⟨pre, s1, post, rfl, hm⟩ := matches_sound h
  have hm : Re.Match (.seq (.lit (str "P ")) (.seq dateRe (.seq (.plus .ws) (.seq (commodityRe (str "1")) (.seq (.plus .ws) (amountRe [] (str "2"))))))) s1 post [] c := hm
  rw [seq_match_iff] at hm
  obtain ⟨s0, t0, c0, rfl, h0, hm⟩ := hm
  rw [seq_match_iff] at hm
  obtain ⟨s, t, c1, rfl, h1, h2⟩ := hm
  have hs : c1.get (str "date") = s := by
    unfold dateRe at h1
    rw [grp_match_iff] at h1
    obtain ⟨c2, _, rfl⟩ := h1
    simp [Caps.get]
  rw [match_get_other h2 (by decide), hs] at hd
  refine dateBase_some ?_
  rw [match_get_other h2 (by decide), match_get_other h2 (by decide), match_get_other h2 (by decide)]
  exact date_captured h1 hd

end Verif
