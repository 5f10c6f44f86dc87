import Verif.Go.Regex
import Mathlib.Data.List.TakeWhile
/-
General facts about the matcher.
-/
namespace Verif

/-- `Match r s rest c c'`: `r` can match `s` when `rest` follows, turning the groups `c` into `c'` (any match, not only the first). -/
inductive Re.Match : Re → Str → Str → Caps → Caps → Prop
  | eps {rest c} : Match .eps [] rest c c
  | cls {p x rest c} : p x = true → Match (.cls p) [x] rest c c
  | seq {a b s t rest c c1 c2} : Match a s (t ++ rest) c c1 → Match b t rest c1 c2 → Match (.seq a b) (s ++ t) rest c c2
  | altL {a b s rest c c'} : Match a s rest c c' → Match (.alt a b) s rest c c'
  | altR {a b s rest c c'} : Match b s rest c c' → Match (.alt a b) s rest c c'
  | starNil {a rest c} : Match (.star a) [] rest c c
  | starCons {a s t rest c c1 c2} : s ≠ [] → Match a s (t ++ rest) c c1 → Match (.star a) t rest c1 c2 → Match (.star a) (s ++ t) rest c c2
  | grp {n a s rest c c'} : Match a s rest c c' → Match (.grp n a) s rest c ((n, s) :: c')
  | eot {c} : Match .eot [] [] c c

theorem orElse_some {α} {a b : Option α} {x : α} (h : orElse a b = some x) : a = some x ∨ b = some x := by
  unfold orElse at h
  split at h
  · exact .inl h
  · exact .inr h

theorem orElse_isSome {α} {a b : Option α} : (orElse a b).isSome = (a.isSome || b.isSome) := by
  cases a <;> rfl

@[simp] theorem orElse_none_left {α} (b : Option α) : orElse none b = b := rfl
@[simp] theorem orElse_some_left {α} (x : α) (b : Option α) : orElse (some x) b = some x := rfl

/-- A result of the matcher comes from a match and its continuation. -/
theorem Re.run_sound (r : Re) : ∀ (k : ReK) (s : Str) (c : Caps) (res), r.run k s c = some res →
    ∃ s1 s2 c', s = s1 ++ s2 ∧ Re.Match r s1 s2 c c' ∧ k s2 c' = some res := by
  induction r with
  | eps => intro k s c res h; exact ⟨[], s, c, rfl, .eps, h⟩
  | cls p =>
    intro k s c res h
    cases s with
    | nil => simp [Re.run] at h
    | cons x s =>
      simp only [Re.run] at h
      split at h
      · rename_i hp; exact ⟨[x], s, c, rfl, .cls hp, h⟩
      · simp at h
  | seq a b iha ihb =>
    intro k s c res h
    obtain ⟨s1, s2, c1, rfl, h1, h2⟩ := iha _ _ _ _ h
    obtain ⟨t1, t2, c2, rfl, h3, h4⟩ := ihb _ _ _ _ h2
    exact ⟨s1 ++ t1, t2, c2, by simp, .seq h1 h3, h4⟩
  | alt a b iha ihb =>
    intro k s c res h
    rcases orElse_some h with h | h
    · obtain ⟨s1, s2, c1, e, h1, h2⟩ := iha _ _ _ _ h; exact ⟨s1, s2, c1, e, .altL h1, h2⟩
    · obtain ⟨s1, s2, c1, e, h1, h2⟩ := ihb _ _ _ _ h; exact ⟨s1, s2, c1, e, .altR h1, h2⟩
  | star a iha =>
    intro k s c res h
    simp only [Re.run] at h
    generalize s.length = n at h
    induction n generalizing s c with
    | zero => exact ⟨[], s, c, rfl, .starNil, h⟩
    | succ n ihn =>
      simp only [starLoop] at h
      rcases orElse_some h with h | h
      · obtain ⟨s1, s2, c1, e, h1, h2⟩ := iha _ _ _ _ h
        split at h2
        · rename_i hlt
          obtain ⟨t1, t2, c2, rfl, h3, h4⟩ := ihn _ _ h2
          refine ⟨s1 ++ t1, t2, c2, by rw [e]; simp, .starCons ?_ h1 h3, h4⟩
          rintro rfl
          rw [e] at hlt; simp at hlt
        · simp at h2
      · exact ⟨[], s, c, rfl, .starNil, h⟩
  | grp n a iha =>
    intro k s c res h
    obtain ⟨s1, s2, c1, rfl, h1, h2⟩ := iha _ _ _ _ h
    refine ⟨s1, s2, _, rfl, .grp h1, ?_⟩
    simpa using h2
  | eot =>
    intro k s c res h
    simp only [Re.run] at h
    split at h
    · rename_i hs; subst hs; exact ⟨[], [], c, rfl, .eot, h⟩
    · simp at h

/-- If there is a match whose continuation succeeds, the matcher finds one. -/
theorem Re.run_complete {r : Re} {s1 s2 : Str} {c c' : Caps} (h : Re.Match r s1 s2 c c') :
    ∀ k : ReK, (k s2 c').isSome = true → (r.run k (s1 ++ s2) c).isSome = true := by
  have main : ∀ (r : Re) (s1 s2 : Str) (c c' : Caps), Re.Match r s1 s2 c c' →
      (∀ k : ReK, (k s2 c').isSome = true → (r.run k (s1 ++ s2) c).isSome = true) ∧
      (∀ a, r = .star a → ∀ (k : ReK) (n : Nat), s1.length ≤ n → (k s2 c').isSome = true → (starLoop a.run k n (s1 ++ s2) c).isSome = true) := by
    intro r s1 s2 c c' h
    induction h with
    | eps => exact ⟨fun k hk => hk, fun _ h => by simp at h⟩
    | cls hp => exact ⟨fun k hk => by simpa [Re.run, hp] using hk, fun _ h => by simp at h⟩
    | seq _ _ ih1 ih2 =>
      refine ⟨fun k hk => ?_, fun _ h => by simp at h⟩
      rw [List.append_assoc]
      exact ih1.1 _ (ih2.1 k hk)
    | altL _ ih =>
      refine ⟨fun k hk => ?_, fun _ h => by simp at h⟩
      simp only [Re.run, orElse_isSome, ih.1 k hk, Bool.true_or]
    | altR _ ih =>
      refine ⟨fun k hk => ?_, fun _ h => by simp at h⟩
      simp only [Re.run, orElse_isSome, ih.1 k hk, Bool.or_true]
    | starNil =>
      have aux : ∀ (a : Re) (k : ReK) (n : Nat) (s : Str) (c : Caps), (k s c).isSome = true → (starLoop a.run k n s c).isSome = true := by
        intro a k n s c hk
        cases n with
        | zero => exact hk
        | succ n => simp only [starLoop, orElse_isSome, hk, Bool.or_true]
      exact ⟨fun k hk => aux _ k _ _ _ hk, fun a ha k n _ hk => aux a k n _ _ hk⟩
    | starCons hne h1 h2 ih1 ih2 =>
      rename_i a s t rest c c1 c2
      have aux : ∀ (k : ReK) (n : Nat), (s ++ t).length ≤ n → (k rest c2).isSome = true → (starLoop a.run k n (s ++ t ++ rest) c).isSome = true := by
        intro k n hn hk
        cases n with
        | zero =>
          simp only [List.length_append] at hn
          have : s = [] := List.length_eq_zero_iff.mp (by omega)
          exact absurd this hne
        | succ n =>
          simp only [starLoop, orElse_isSome]
          have hlen : 0 < s.length := List.length_pos_iff.mpr hne
          have : (a.run (fun s' c' => if s'.length < (s ++ t ++ rest).length then starLoop a.run k n s' c' else none) (s ++ t ++ rest) c).isSome = true := by
            rw [List.append_assoc]
            apply ih1.1
            rw [if_pos (by simp; omega)]
            exact ih2.2 a rfl k n (by simp only [List.length_append] at hn; omega) hk
          rw [this]; rfl
      refine ⟨fun k hk => aux k _ (by simp [List.length_append]) hk, ?_⟩
      intro a' ha' k n hn hk
      simp only [Re.star.injEq] at ha'
      subst ha'
      exact aux k n hn hk
    | grp _ ih =>
      refine ⟨fun k hk => ?_, fun _ h => by simp at h⟩
      simp only [Re.run]
      apply ih.1
      simpa using hk
    | eot =>
      refine ⟨fun k hk => ?_, fun _ h => by simp at h⟩
      simpa [Re.run] using hk
  exact (main r s1 s2 c c' h).1

/-- No match with a successful continuation: the matcher fails. -/
theorem Re.run_none {r : Re} {k : ReK} {s : Str} {c : Caps}
    (h : ∀ s1 s2 c', s = s1 ++ s2 → Re.Match r s1 s2 c c' → k s2 c' = none) : r.run k s c = none := by
  cases hr : r.run k s c with
  | none => rfl
  | some res =>
    obtain ⟨s1, s2, c', e, hm, hk⟩ := Re.run_sound r k s c res hr
    rw [h s1 s2 c' e hm] at hk; simp at hk

/-! ### Running a given expression -/

@[simp] theorem run_eps (k : ReK) (s : Str) (c : Caps) : Re.run .eps k s c = k s c := rfl
@[simp] theorem run_seq (a b : Re) (k : ReK) (s : Str) (c : Caps) : Re.run (.seq a b) k s c = a.run (b.run k) s c := rfl
theorem run_alt (a b : Re) (k : ReK) (s : Str) (c : Caps) : Re.run (.alt a b) k s c = orElse (a.run k s c) (b.run k s c) := rfl
@[simp] theorem run_opt (a : Re) (k : ReK) (s : Str) (c : Caps) : (Re.opt a).run k s c = orElse (a.run k s c) (k s c) := rfl
@[simp] theorem run_grp (n : Str) (a : Re) (k : ReK) (s : Str) (c : Caps) :
    Re.run (.grp n a) k s c = a.run (fun s' c' => k s' ((n, s.take (s.length - s'.length)) :: c')) s c := rfl
@[simp] theorem run_plus (a : Re) (k : ReK) (s : Str) (c : Caps) : (Re.plus a).run k s c = a.run ((Re.star a).run k) s c := rfl
@[simp] theorem run_cls_cons (p : Char → Bool) (k : ReK) (x : Char) (s : Str) (c : Caps) :
    Re.run (.cls p) k (x :: s) c = if p x then k s c else none := rfl
@[simp] theorem run_cls_nil (p : Char → Bool) (k : ReK) (c : Caps) : Re.run (.cls p) k [] c = none := rfl
theorem run_ch_cons (d : Char) (k : ReK) (x : Char) (s : Str) (c : Caps) : (Re.ch d).run k (x :: s) c = if x = d then k s c else none := by
  simp [Re.ch]
@[simp] theorem run_ch_nil (d : Char) (k : ReK) (c : Caps) : (Re.ch d).run k [] c = none := rfl
@[simp] theorem run_ch_same (d : Char) (k : ReK) (s : Str) (c : Caps) : (Re.ch d).run k (d :: s) c = k s c := by simp [run_ch_cons]

/-- Taking everything up to the rest. -/
theorem take_sub (a b : Str) : (a ++ b).take ((a ++ b).length - b.length) = a := by simp

theorem starLoop_cls_some (p : Char → Bool) (k : ReK) (c : Caps) (res) : ∀ (n : Nat) (a b : Str), a.length ≤ n → (∀ x ∈ a, p x = true) →
    (∀ x t, b = x :: t → p x = false) → k b c = some res → starLoop (Re.cls p).run k n (a ++ b) c = some res := by
  intro n
  induction n with
  | zero =>
    intro a b ha _ _ hk
    have : a = [] := List.length_eq_zero_iff.mp (by omega)
    subst this; exact hk
  | succ n ih =>
    intro a b ha hp hb hk
    cases a with
    | nil =>
      simp only [List.nil_append, starLoop]
      cases b with
      | nil => simp [Re.run, hk]
      | cons x t => simp [Re.run, hb x t rfl, hk]
    | cons x a =>
      simp only [List.cons_append, starLoop, run_cls_cons, hp x (by simp), if_true]
      rw [if_pos (by simp), ih a b (by simpa using ha) (fun y hy => hp y (by simp [hy])) hb hk]
      rfl

/-- Greedy repetition of a class takes all it can if the rest then matches. -/
theorem star_cls_some {p : Char → Bool} {k : ReK} {c : Caps} {res} {a b : Str} (hp : ∀ x ∈ a, p x = true)
    (hb : ∀ x t, b = x :: t → p x = false) (hk : k b c = some res) : (Re.star (.cls p)).run k (a ++ b) c = some res :=
  starLoop_cls_some p k c res _ a b (by simp) hp hb hk

theorem star_cls_match {p : Char → Bool} {s rest : Str} {c c' : Caps} (h : Re.Match (.star (.cls p)) s rest c c') :
    (∀ x ∈ s, p x = true) ∧ c' = c := by
  generalize hr : Re.star (.cls p) = r at h
  induction h with
  | starNil => simp
  | starCons hne h1 h2 _ ih2 =>
    simp only [Re.star.injEq] at hr
    subst hr
    cases h1 with
    | cls hp =>
      obtain ⟨i1, i2⟩ := ih2 rfl
      refine ⟨?_, i2⟩
      intro x hx
      rcases List.mem_append.mp hx with hx | hx
      · simp only [List.mem_singleton] at hx; rw [hx]; exact hp
      · exact i1 x hx
  | _ => simp at hr

/-- Match of a repeated class, both directions. -/
theorem star_cls_match_iff {p : Char → Bool} {s rest : Str} {c c' : Caps} :
    Re.Match (.star (.cls p)) s rest c c' ↔ (∀ x ∈ s, p x = true) ∧ c' = c := by
  refine ⟨star_cls_match, ?_⟩
  rintro ⟨h, rfl⟩
  induction s with
  | nil => exact .starNil
  | cons x s ih =>
    have : Re.Match (.star (.cls p)) ([x] ++ s) rest c' c' :=
      .starCons (by simp) (.cls (h x (by simp))) (ih (fun y hy => h y (by simp [hy])))
    simpa using this

theorem seq_match_iff {a b : Re} {s rest : Str} {c c' : Caps} :
    Re.Match (.seq a b) s rest c c' ↔ ∃ s1 s2 c1, s = s1 ++ s2 ∧ Re.Match a s1 (s2 ++ rest) c c1 ∧ Re.Match b s2 rest c1 c' := by
  constructor
  · intro h; cases h with | seq h1 h2 => exact ⟨_, _, _, rfl, h1, h2⟩
  · rintro ⟨s1, s2, c1, rfl, h1, h2⟩; exact .seq h1 h2

theorem cls_match_iff {p : Char → Bool} {s rest : Str} {c c' : Caps} :
    Re.Match (.cls p) s rest c c' ↔ ∃ x, s = [x] ∧ p x = true ∧ c' = c := by
  constructor
  · intro h; cases h with | cls hp => exact ⟨_, rfl, hp, rfl⟩
  · rintro ⟨x, rfl, hp, rfl⟩; exact .cls hp

theorem ch_match_iff {d : Char} {s rest : Str} {c c' : Caps} : Re.Match (.ch d) s rest c c' ↔ s = [d] ∧ c' = c := by
  unfold Re.ch
  rw [cls_match_iff]
  constructor
  · rintro ⟨x, rfl, hp, rfl⟩; exact ⟨by simpa using hp, rfl⟩
  · rintro ⟨rfl, rfl⟩; exact ⟨d, rfl, by simp, rfl⟩

theorem eps_match_iff {s rest : Str} {c c' : Caps} : Re.Match .eps s rest c c' ↔ s = [] ∧ c' = c := by
  constructor
  · intro h; cases h; exact ⟨rfl, rfl⟩
  · rintro ⟨rfl, rfl⟩; exact .eps

theorem alt_match_iff {a b : Re} {s rest : Str} {c c' : Caps} :
    Re.Match (.alt a b) s rest c c' ↔ Re.Match a s rest c c' ∨ Re.Match b s rest c c' := by
  constructor
  · intro h; cases h with | altL h => exact .inl h | altR h => exact .inr h
  · rintro (h | h); exact .altL h; exact .altR h

theorem opt_match_iff {a : Re} {s rest : Str} {c c' : Caps} :
    Re.Match (.opt a) s rest c c' ↔ Re.Match a s rest c c' ∨ (s = [] ∧ c' = c) := by
  unfold Re.opt; rw [alt_match_iff, eps_match_iff]

theorem grp_match_iff {n : Str} {a : Re} {s rest : Str} {c c' : Caps} :
    Re.Match (.grp n a) s rest c c' ↔ ∃ c1, Re.Match a s rest c c1 ∧ c' = (n, s) :: c1 := by
  constructor
  · intro h; cases h with | grp h => exact ⟨_, h, rfl⟩
  · rintro ⟨c1, h, rfl⟩; exact .grp h

theorem eot_match_iff {s rest : Str} {c c' : Caps} : Re.Match .eot s rest c c' ↔ s = [] ∧ rest = [] ∧ c' = c := by
  constructor
  · intro h; cases h; exact ⟨rfl, rfl, rfl⟩
  · rintro ⟨rfl, rfl, rfl⟩; exact .eot

theorem plus_cls_match_iff {p : Char → Bool} {s rest : Str} {c c' : Caps} :
    Re.Match (.plus (.cls p)) s rest c c' ↔ s ≠ [] ∧ (∀ x ∈ s, p x = true) ∧ c' = c := by
  unfold Re.plus
  rw [seq_match_iff]
  constructor
  · rintro ⟨s1, s2, c1, rfl, h1, h2⟩
    obtain ⟨x, rfl, hx, rfl⟩ := cls_match_iff.mp h1
    obtain ⟨h3, rfl⟩ := star_cls_match_iff.mp h2
    exact ⟨by simp, by intro y hy; rcases List.mem_append.mp hy with hy | hy; (· simp only [List.mem_singleton] at hy; rw [hy]; exact hx); exact h3 y hy, rfl⟩
  · rintro ⟨hne, hp, rfl⟩
    obtain ⟨x, t, rfl⟩ := List.exists_cons_of_ne_nil hne
    exact ⟨[x], t, _, rfl, cls_match_iff.mpr ⟨x, rfl, hp x (by simp), rfl⟩, star_cls_match_iff.mpr ⟨fun y hy => hp y (by simp [hy]), rfl⟩⟩

/-- One or more of a class, greedy. -/
theorem plus_cls_some {p : Char → Bool} {k : ReK} {c : Caps} {res} {a b : Str} (hne : a ≠ []) (hp : ∀ x ∈ a, p x = true)
    (hb : ∀ x t, b = x :: t → p x = false) (hk : k b c = some res) : (Re.plus (.cls p)).run k (a ++ b) c = some res := by
  obtain ⟨x, t, rfl⟩ := List.exists_cons_of_ne_nil hne
  rw [run_plus]
  simp only [List.cons_append, run_cls_cons, hp x (by simp), if_true]
  exact star_cls_some (fun y hy => hp y (by simp [hy])) hb hk

/-- A literal text. -/
theorem run_lit (l : Str) (k : ReK) (s : Str) (c : Caps) : (Re.lit l).run k (l ++ s) c = k s c := by
  induction l with
  | nil => rfl
  | cons d l ih =>
    cases l with
    | nil => simp [Re.lit]
    | cons e l => rw [Re.lit]; simp only [run_seq, List.cons_append, run_ch_same]; simpa using ih; simp

theorem lit_match_iff {l s rest : Str} {c c' : Caps} : Re.Match (.lit l) s rest c c' ↔ s = l ∧ c' = c := by
  induction l generalizing s with
  | nil => exact eps_match_iff
  | cons d l ih =>
    cases l with
    | nil => exact ch_match_iff
    | cons e l =>
      rw [Re.lit, seq_match_iff]
      · constructor
        · rintro ⟨s1, s2, c1, rfl, h1, h2⟩
          obtain ⟨rfl, rfl⟩ := ch_match_iff.mp h1
          obtain ⟨rfl, rfl⟩ := ih.mp h2
          exact ⟨rfl, rfl⟩
        · rintro ⟨rfl, rfl⟩
          exact ⟨[d], e :: l, _, rfl, ch_match_iff.mpr ⟨rfl, rfl⟩, ih.mpr ⟨rfl, rfl⟩⟩
      · simp

/-! ### Searching -/

theorem find_at {r : Re} {s : Str} {m : Caps × Str} (h : r.matchAt s = some m) : r.find s = some ([], m.1, m.2) := by
  cases s with
  | nil => simp [Re.find, h]
  | cons x s => simp [Re.find, h]

theorem matches_at {r : Re} {s : Str} {m : Caps × Str} (h : r.matchAt s = some m) : r.matches s = some m.1 := by
  unfold Re.matches; rw [find_at h]; rfl

/-- A search result is a match at the position. -/
theorem find_sound {r : Re} {s pre : Str} {c : Caps} {post : Str} (h : r.find s = some (pre, c, post)) :
    ∃ s1, s = pre ++ s1 ++ post ∧ Re.Match r s1 post [] c ∧ r.matchAt (s1 ++ post) = some (c, post) := by
  induction s generalizing pre with
  | nil =>
    simp only [Re.find, Option.map_eq_some_iff] at h
    obtain ⟨m, hm, he⟩ := h
    simp only [Prod.mk.injEq] at he
    obtain ⟨rfl, rfl, rfl⟩ := he
    obtain ⟨s1, s2, c', e, hM, hk⟩ := Re.run_sound r _ _ _ _ hm
    simp only [reDone, Option.some.injEq] at hk
    subst hk
    exact ⟨s1, by simpa using e, hM, by rw [← e]; exact hm⟩
  | cons x s ih =>
    simp only [Re.find] at h
    split at h
    · rename_i m hm
      simp only [Option.some.injEq, Prod.mk.injEq] at h
      obtain ⟨rfl, rfl, rfl⟩ := h
      obtain ⟨s1, s2, c', e, hM, hk⟩ := Re.run_sound r _ _ _ _ hm
      simp only [reDone, Option.some.injEq] at hk
      subst hk
      exact ⟨s1, by simpa using e, hM, by rw [← e]; exact hm⟩
    · rw [Option.map_eq_some_iff] at h
      obtain ⟨m, hm, he⟩ := h
      simp only [Prod.mk.injEq] at he
      obtain ⟨rfl, rfl, rfl⟩ := he
      obtain ⟨s1, e, h2, h3⟩ := ih (pre := m.1) (by rw [hm])
      exact ⟨s1, by rw [e]; simp, h2, h3⟩

/-- No match anywhere. -/
theorem find_none_iff {r : Re} {s : Str} : r.find s = none ↔ ∀ pre s1, s = pre ++ s1 → r.matchAt s1 = none := by
  induction s with
  | nil =>
    simp only [Re.find, Option.map_eq_none_iff]
    constructor
    · intro h pre s1 e
      have : s1 = [] := by have := congrArg List.length e; simp at this; exact List.length_eq_zero_iff.mp (by omega)
      rw [this]; exact h
    · intro h; exact h [] [] rfl
  | cons x s ih =>
    simp only [Re.find]
    constructor
    · intro h
      split at h
      · simp at h
      · rename_i hm
        rw [Option.map_eq_none_iff, ih] at h
        intro pre s1 e
        cases pre with
        | nil => simp only [List.nil_append] at e; rw [← e]; exact hm
        | cons y pre =>
          simp only [List.cons_append, List.cons.injEq] at e
          exact h pre s1 e.2
    · intro h
      rw [h [] (x :: s) rfl]
      simp only [Option.map_eq_none_iff]
      rw [ih]
      intro pre s1 e
      exact h (x :: pre) s1 (by rw [e]; rfl)

/-- The matcher fails at a position exactly when nothing matches there. -/
theorem matchAt_none_iff {r : Re} {s : Str} : r.matchAt s = none ↔ ∀ s1 s2 c', s = s1 ++ s2 → ¬ Re.Match r s1 s2 [] c' := by
  constructor
  · intro h s1 s2 c' e hm
    have := Re.run_complete hm reDone rfl
    unfold Re.matchAt at h
    rw [e] at h
    rw [h] at this; simp at this
  · intro h
    exact Re.run_none (fun s1 s2 c' e hm => absurd hm (h s1 s2 c' e))

end Verif
