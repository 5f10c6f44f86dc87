import Verif.Model.Pattern
import Verif.Props.Accounts
import Verif.Lemmas.Regex
import Mathlib.Data.List.Forall2
import Batteries.Data.Char.Basic
/-
C82: which accounts a pattern finds.
-/
namespace Verif

/-! ### Specification -/

/-- `w` occurs in `c`, whatever the case of letters. -/
def Has (w c : Str) : Prop := w.map lowerA <:+: c.map lowerA

/-- The capital letters and their small letters. -/
def letterPairs : List (Char × Char) := (str "ABCDEFGHIJKLMNOPQRSTUVWXYZ").zip (str "abcdefghijklmnopqrstuvwxyz")

/-- **C82** `Has` (below: `lowerA`) identifies each of the 26 capital letters with its small letter, and no other characters. -/
theorem C82_case : (∀ e ∈ letterPairs, lowerA e.1 = e.2 ∧ lowerA e.2 = e.2) ∧ ∀ c, (∀ e ∈ letterPairs, c ≠ e.1) → lowerA c = c := by
  refine ⟨by decide +kernel, ?_⟩
  intro c hc
  unfold lowerA
  split
  · next h =>
    exfalso
    have hall : ∀ n : Fin 26, (Char.ofNat (65 + n.val), Char.ofNat (97 + n.val)) ∈ letterPairs := by decide +kernel
    have h1 := hall ⟨c.toNat - 65, by omega⟩
    refine hc _ h1 ?_
    show c = Char.ofNat (65 + (c.toNat - 65))
    rw [show 65 + (c.toNat - 65) = c.toNat by omega, Char.ofNat_toNat]
  · rfl

/-- A plain word of a pattern: not empty, of characters that mean themselves. -/
def PlainWord (w : Str) : Prop := w ≠ [] ∧ ∀ c ∈ w, isNameChar c = true

/-- An account's full name: characters of names and `:`. -/
def NameText (n : Str) : Prop := ∀ c ∈ n, isNameChar c = true ∨ c = ':'

/-! ### Lemmas -/

theorem nameChar_ascii {c : Char} (h : isNameChar c = true) : c.toNat < 128 := by
  unfold isNameChar isWord isAlpha isDigit at h
  simp only [Bool.or_eq_true, Bool.and_eq_true, decide_eq_true_eq] at h
  rcases h with ((((⟨_, h⟩ | ⟨_, h⟩) | ⟨_, h⟩) | h) | h) | h
  · omega
  · omega
  · omega
  all_goals (subst h; decide)

theorem foldEq_ascii {c x : Char} (h : x.toNat < 128) : foldEq c x = true ↔ lowerA x = lowerA c := by
  unfold foldEq
  have h1 : x ≠ '\u017f' := by intro e; subst e; exact absurd h (by decide)
  have h2 : x ≠ '\u212a' := by intro e; subst e; exact absurd h (by decide)
  simp [h1, h2]

theorem nameFold_of {c : Char} (h : isNameChar c = true) : isNameFold c = true := by unfold isNameFold; simp [h]

theorem nameText_noColon {n : Str} (h : NameText n) (hc : ':' ∉ n) : ∀ x ∈ n, isNameChar x = true := by
  intro x hx
  rcases h x hx with h | h
  · exact h
  · subst h; exact absurd hx hc

theorem NameText.of_append {a b : Str} (h : NameText (a ++ b)) : NameText a ∧ NameText b :=
  ⟨fun c hc => h c (by simp [hc]), fun c hc => h c (by simp [hc])⟩

/-- `m` is `w` up to case. -/
def SameFold (w m : Str) : Prop := m.map lowerA = w.map lowerA

theorem forall2_fold {w m : Str} (hm : ∀ x ∈ m, x.toNat < 128) : List.Forall₂ (fun c x => foldEq c x = true) w m ↔ SameFold w m := by
  unfold SameFold
  induction w generalizing m with
  | nil => cases m <;> simp
  | cons c w ih =>
    cases m with
    | nil => simp
    | cons x m =>
      rw [List.forall₂_cons, ih (fun y hy => hm y (by simp [hy])), foldEq_ascii (hm x (by simp))]
      simp

/-- The word as text: with `$` if it ends the pattern there. -/
def endWord (e : Bool) (w : Str) : Str := if e then w ++ ['$'] else w

theorem plain_ne_dollar {c : Char} (h : isNameChar c = true) : c ≠ '$' := by rintro rfl; exact absurd h (by decide)

theorem wordRe_match {w s rest : Str} {c c' : Caps} (e : Bool) (hw : ∀ x ∈ w, isNameChar x = true) :
    Re.Match (wordRe (endWord e w)) s rest c c' ↔ List.Forall₂ (fun c x => foldEq c x = true) w s ∧ (e = true → rest = []) ∧ c' = c := by
  induction w generalizing s with
  | nil =>
    cases e with
    | false =>
      rw [show endWord false [] = [] from rfl, wordRe, eps_match_iff]
      constructor
      · rintro ⟨rfl, h⟩; exact ⟨.nil, by simp, h⟩
      · rintro ⟨h, _, h'⟩; cases h; exact ⟨rfl, h'⟩
    | true =>
      rw [show endWord true [] = ['$'] from rfl, wordRe, if_pos rfl, wordRe, seq_match_iff]
      constructor
      · rintro ⟨s1, s2, c1, rfl, h1, h2⟩
        obtain ⟨rfl, rfl⟩ := eps_match_iff.mp h2
        obtain ⟨rfl, h, rfl⟩ := eot_match_iff.mp h1
        exact ⟨.nil, fun _ => by simpa using h, rfl⟩
      · rintro ⟨h, hr, h'⟩
        cases h
        exact ⟨[], [], c, rfl, eot_match_iff.mpr ⟨rfl, by simpa using hr rfl, rfl⟩, eps_match_iff.mpr ⟨rfl, h'⟩⟩
  | cons d w ih =>
    have hd := plain_ne_dollar (hw d (by simp))
    have he : endWord e (d :: w) = d :: endWord e w := by cases e <;> rfl
    rw [he, wordRe, if_neg hd, seq_match_iff]
    have ih := fun s => ih (s := s) (fun x hx => hw x (by simp [hx]))
    constructor
    · rintro ⟨s1, s2, c1, rfl, h1, h2⟩
      obtain ⟨x, rfl, hx, rfl⟩ := cls_match_iff.mp h1
      obtain ⟨h3, h4, h5⟩ := (ih s2).mp h2
      exact ⟨.cons hx h3, h4, h5⟩
    · rintro ⟨h, hr, h'⟩
      cases h with
      | @cons _ x _ s2 hx h =>
        exact ⟨[x], s2, c, rfl, cls_match_iff.mpr ⟨x, rfl, hx, rfl⟩, (ih s2).mpr ⟨h, hr, h'⟩⟩

theorem singleRe_match {s rest : Str} {c c' : Caps} : Re.Match singleRe s rest c c' ↔
    ∃ g1 g2, s = g1 ++ ':' :: g2 ∧ (∀ x ∈ g1, isNameFold x = true) ∧ (∀ x ∈ g2, isNameFold x = true) ∧ c' = c := by
  have e : singleRe = .seq (.star (.cls isNameFold)) (.seq (.ch ':') (.star (.cls isNameFold))) := rfl
  rw [e, seq_match_iff]
  constructor
  · rintro ⟨s1, s2, c1, rfl, h1, h2⟩
    obtain ⟨s3, s4, c2, rfl, h3, h4⟩ := seq_match_iff.mp h2
    obtain ⟨h1', rfl⟩ := star_cls_match_iff.mp h1
    obtain ⟨rfl, rfl⟩ := ch_match_iff.mp h3
    obtain ⟨h4', rfl⟩ := star_cls_match_iff.mp h4
    exact ⟨s1, s4, rfl, h1', h4', rfl⟩
  · rintro ⟨g1, g2, rfl, h1, h2, rfl⟩
    exact ⟨g1, ':' :: g2, c', rfl, star_cls_match_iff.mpr ⟨h1, rfl⟩,
      seq_match_iff.mpr ⟨[':'], g2, c', rfl, ch_match_iff.mpr ⟨rfl, rfl⟩, star_cls_match_iff.mpr ⟨h2, rfl⟩⟩⟩

/-- The words of a pattern as texts; `$` at the last one. -/
def endWords (e : Bool) : List Str → List Str
  | [] => []
  | [w] => [endWord e w]
  | w :: w' :: ws => w :: endWords e (w' :: ws)

/-- What the words after the first match. -/
def TailMatch (e : Bool) : List Str → Str → Str → Prop
  | [], s, _ => s = []
  | w :: ws, s, rest => ∃ g1 g2 m t, s = g1 ++ ':' :: (g2 ++ (m ++ t)) ∧ (∀ x ∈ g1, isNameFold x = true) ∧ (∀ x ∈ g2, isNameFold x = true) ∧
      List.Forall₂ (fun c x => foldEq c x = true) w m ∧ (ws = [] → e = true → t ++ rest = []) ∧ TailMatch e ws t rest

theorem endWords_cons (e : Bool) (w : Str) (ws : List Str) : endWords e (w :: ws) = endWord (e && ws.isEmpty) w :: endWords e ws := by
  cases ws with
  | nil => simp [endWords]
  | cons w' ws => simp [endWords, endWord]

theorem endWord_ne (e : Bool) {w : Str} (h : w ≠ []) : endWord e w ≠ [] := by
  cases e
  · exact h
  · unfold endWord; simp

theorem loop_match (e : Bool) (ws : List Str) (hw : ∀ w ∈ ws, PlainWord w) (rx : Re) (s rest : Str) (c c' : Caps) :
    Re.Match (toRegexLoop rx true (endWords e ws)) s rest c c' ↔
      ∃ s0 s1, s = s0 ++ s1 ∧ Re.Match rx s0 (s1 ++ rest) c c' ∧ TailMatch e ws s1 rest := by
  induction ws generalizing rx s c c' with
  | nil =>
    rw [endWords, toRegexLoop]
    constructor
    · intro h; exact ⟨s, [], by simp, h, rfl⟩
    · rintro ⟨s0, s1, rfl, h, h'⟩
      cases h'; simpa using h
  | cons w ws ih =>
    have hp := hw w (by simp)
    rw [endWords_cons, toRegexLoop, if_neg (endWord_ne _ hp.1), if_pos rfl, ih (fun x hx => hw x (by simp [hx]))]
    constructor
    · rintro ⟨s0, s1, rfl, h1, h2⟩
      obtain ⟨a, m, c1, rfl, h3, h4⟩ := seq_match_iff.mp h1
      obtain ⟨b, g, c2, rfl, h5, h6⟩ := seq_match_iff.mp h3
      obtain ⟨g1, g2, rfl, hg1, hg2, rfl⟩ := singleRe_match.mp h6
      obtain ⟨h7, h8, rfl⟩ := (wordRe_match _ hp.2).mp h4
      refine ⟨b, g1 ++ ':' :: (g2 ++ (m ++ s1)), by simp, by simpa using h5, g1, g2, m, s1, rfl, hg1, hg2, h7, ?_, h2⟩
      intro hn he; exact h8 (by rw [hn, he]; rfl)
    · rintro ⟨b, s1, rfl, h1, g1, g2, m, t, rfl, hg1, hg2, h2, h3, h4⟩
      refine ⟨b ++ (g1 ++ ':' :: g2) ++ m, t, by simp, ?_, h4⟩
      refine seq_match_iff.mpr ⟨b ++ (g1 ++ ':' :: g2), m, c', rfl, ?_, ?_⟩
      · refine seq_match_iff.mpr ⟨b, g1 ++ ':' :: g2, c', rfl, by simpa using h1, singleRe_match.mpr ⟨g1, g2, rfl, hg1, hg2, rfl⟩⟩
      · refine (wordRe_match _ hp.2).mpr ⟨h2, ?_, rfl⟩
        intro he
        simp only [Bool.and_eq_true, List.isEmpty_iff] at he
        exact h3 he.2 he.1

/-! Components -/

theorem splitOn_append (a : Str) : ∃ l1 u, splitOn ':' a = l1 ++ [u] ∧ ':' ∉ u ∧
    ∀ b hd tl, splitOn ':' b = hd :: tl → splitOn ':' (a ++ b) = l1 ++ (u ++ hd) :: tl := by
  induction a with
  | nil => exact ⟨[], [], rfl, by simp, fun b hd tl h => h⟩
  | cons x a ih =>
    obtain ⟨l1, u, h1, h2, h3⟩ := ih
    by_cases hx : x = ':'
    · refine ⟨[] :: l1, u, by rw [splitOn, if_pos hx, h1]; rfl, h2, ?_⟩
      intro b hd tl h
      rw [List.cons_append, splitOn, if_pos hx, h3 b hd tl h]; rfl
    · cases l1 with
      | nil =>
        refine ⟨[], x :: u, by rw [splitOn, if_neg hx, h1]; rfl, by simp [h2, Ne.symm hx], ?_⟩
        intro b hd tl h
        rw [List.cons_append, splitOn, if_neg hx, h3 b hd tl h]; rfl
      | cons y l1 =>
        refine ⟨(x :: y) :: l1, u, by rw [splitOn, if_neg hx, h1]; rfl, h2, ?_⟩
        intro b hd tl h
        rw [List.cons_append, splitOn, if_neg hx, h3 b hd tl h]; rfl

theorem splitOn_prefix {u b : Str} {hd : Str} {tl : List Str} (hu : ':' ∉ u) (h : splitOn ':' b = hd :: tl) : splitOn ':' (u ++ b) = (u ++ hd) :: tl := by
  obtain ⟨l1, v, h1, _, h3⟩ := splitOn_append u
  rw [splitOn_noSep _ _ hu] at h1
  have : l1 = [] ∧ v = u := by
    cases l1 with
    | nil => simp at h1; exact ⟨rfl, h1.symm⟩
    | cons y l1 => simp at h1
  obtain ⟨rfl, rfl⟩ := this
  exact h3 b hd tl h

/-- Cutting a text at a component. -/
theorem splitOn_cut {t : Str} {l1 : List Str} {c : Str} {r : List Str} (h : splitOn ':' t = l1 ++ c :: r) :
    ∃ P Q, t = P ++ (c ++ Q) ∧ (l1 = [] → P = []) ∧ ∀ y, ':' ∉ y → splitOn ':' (y ++ Q) = y :: r := by
  have hno : ∀ p ∈ l1 ++ c :: r, ':' ∉ p := by rw [← h]; exact splitOn_noColon ':' t
  have ht : t = joinWith [':'] (l1 ++ c :: r) := by rw [← h, joinWith_splitOn]
  clear h
  subst ht
  induction l1 with
  | nil =>
    cases r with
    | nil => exact ⟨[], [], by simp [joinWith], by simp, fun y hy => by rw [List.append_nil, splitOn_noSep _ _ hy]⟩
    | cons d r =>
      refine ⟨[], ':' :: joinWith [':'] (d :: r), by simp [joinWith], by simp, ?_⟩
      intro y hy
      rw [splitOn_append_sep _ _ _ hy, splitOn_joinWith _ (by simp) (fun p hp => hno p (by simp only [List.nil_append, List.mem_cons]; right; exact List.mem_cons.mp hp))]
  | cons a l1 ih =>
    obtain ⟨P, Q, h1, _, h2⟩ := ih (fun p hp => hno p (by simp only [List.cons_append, List.mem_cons]; exact .inr hp))
    refine ⟨a ++ [':'] ++ P, Q, ?_, by simp, h2⟩
    rw [List.cons_append, joinWith_cons _ _ _ (by simp), h1]
    simp

/-- The end condition of a pattern with `$`: `cs` are the last components, and the last word ends the last one. -/
def EndsWith (ws cs : List Str) (t : Str) (l2 : List Str) : Prop :=
  l2 = [] ∧ (∀ w ∈ ws.getLast?, ∀ c ∈ cs.getLast?, w.map lowerA <:+ c.map lowerA) ∧ (ws = [] → t = [])

theorem noColon_fold {g : Str} (h : ∀ x ∈ g, isNameFold x = true) : ':' ∉ g := by
  intro hc; exact absurd (h _ hc) (by decide)

theorem sameFold_noColon {w m : Str} (hw : ∀ x ∈ w, isNameChar x = true) (hm : NameText m) (h : SameFold w m) : ':' ∉ m := by
  intro hc
  have h1 : lowerA ':' ∈ m.map lowerA := List.mem_map_of_mem hc
  rw [show m.map lowerA = w.map lowerA from h] at h1
  obtain ⟨x, hx, he⟩ := List.mem_map.mp h1
  have h2 := hw x hx
  have h3 : lowerA ':' = ':' := by decide
  rw [h3] at he
  unfold lowerA at he
  split at he
  · rename_i hr
    have := congrArg Char.toNat he
    rw [Char.toNat_ofNat, if_pos (by left; omega)] at this
    have h4 : (':' : Char).toNat = 58 := by decide
    omega
  · subst he; exact absurd h2 (by decide)

theorem tail_iff (e : Bool) (ws : List Str) (hw : ∀ w ∈ ws, PlainWord w) (t : Str) (ht : NameText t) :
    (∃ s post, t = s ++ post ∧ TailMatch e ws s post ∧ (ws = [] → e = true → post = [])) ↔
      ∃ cs l2, (splitOn ':' t).tail = cs ++ l2 ∧ List.Forall₂ Has ws cs ∧ (e = true → EndsWith ws cs t l2) := by
  induction ws generalizing t with
  | nil =>
    constructor
    · rintro ⟨s, post, rfl, hs, he⟩
      cases hs
      refine ⟨[], (splitOn ':' ([] ++ post)).tail, rfl, .nil, ?_⟩
      intro h
      have := he rfl h
      subst this
      exact ⟨rfl, by simp, by simp⟩
    · rintro ⟨cs, l2, _, _, h⟩
      exact ⟨[], t, rfl, rfl, fun _ he => (h he).2.2 rfl⟩
  | cons w ws ih =>
    have hp := hw w (by simp)
    have ih := ih (fun x hx => hw x (by simp [hx]))
    constructor
    · rintro ⟨s, post, rfl, ⟨g1, g2, m, Y, rfl, hg1, hg2, hm, he, hY⟩, _⟩
      have ht2 := (NameText.of_append ht)
      have htm : NameText m ∧ NameText (Y ++ post) := by
        constructor
        · intro c hc; exact ht c (by simp [hc])
        · intro c hc; rcases List.mem_append.mp hc with hc | hc <;> exact ht c (by simp [hc])
      have hmf : SameFold w m := (forall2_fold (fun x hx => by
        rcases htm.1 x hx with h | h
        · exact nameChar_ascii h
        · subst h; decide)).mp hm
      have hmc := sameFold_noColon hp.2 htm.1 hmf
      obtain ⟨cs, l2, h1, h2, h3⟩ := (ih (Y ++ post) htm.2).mp ⟨Y, post, rfl, hY, fun hws he' => by
        have := he hws he'; simp at this; exact this.2⟩
      obtain ⟨hd, tl, hsp⟩ : ∃ hd tl, splitOn ':' (Y ++ post) = hd :: tl := by
        cases hh : splitOn ':' (Y ++ post) with
        | nil => exact absurd hh (splitOn_ne_nil _ _)
        | cons a b => exact ⟨a, b, rfl⟩
      rw [hsp] at h1
      simp only [List.tail_cons] at h1
      have hsplit : splitOn ':' (g1 ++ ':' :: (g2 ++ (m ++ Y)) ++ post) = g1 :: ((g2 ++ m) ++ hd) :: tl := by
        have e1 : g1 ++ ':' :: (g2 ++ (m ++ Y)) ++ post = g1 ++ ':' :: ((g2 ++ m) ++ (Y ++ post)) := by simp
        rw [e1, splitOn_append_sep _ _ _ (noColon_fold hg1), splitOn_prefix (by simp [noColon_fold hg2, hmc]) hsp]
      refine ⟨((g2 ++ m) ++ hd) :: cs, l2, by rw [hsplit, h1]; rfl, .cons ?_ h2, ?_⟩
      · unfold Has
        simp only [List.map_append]
        rw [show m.map lowerA = w.map lowerA from hmf]
        exact ⟨g2.map lowerA, hd.map lowerA, rfl⟩
      · intro he'
        obtain ⟨e1, e2, e3⟩ := h3 he'
        refine ⟨e1, ?_, by simp⟩
        cases ws with
        | nil =>
          have hnil := e3 rfl
          cases h2
          have : hd = [] ∧ tl = [] := by
            rw [hnil] at hsp
            simp [splitOn] at hsp
            exact hsp
          intro a ha b hb
          simp only [List.getLast?_singleton, Option.mem_def, Option.some.injEq] at ha hb
          subst ha hb
          rw [this.1, List.append_nil, List.map_append, show m.map lowerA = _ from hmf]
          exact ⟨g2.map lowerA, rfl⟩
        | cons w' ws =>
          cases h2 with
          | @cons _ c _ cs hc h2 =>
            intro a ha b hb
            rw [List.getLast?_cons_cons] at ha hb
            exact e2 a ha b hb
    · rintro ⟨cs, l2, h1, h2, h3⟩
      cases h2 with
      | @cons _ c _ cs hc h2 =>
        obtain ⟨g1, hsp⟩ : ∃ g1, splitOn ':' t = [g1] ++ c :: (cs ++ l2) := by
          cases hh : splitOn ':' t with
          | nil => exact absurd hh (splitOn_ne_nil _ _)
          | cons a b => rw [hh] at h1; simp only [List.tail_cons] at h1; exact ⟨a, by rw [h1]; rfl⟩
        have hg1c : ':' ∉ g1 := splitOn_noColon ':' t g1 (by rw [hsp]; simp)
        have hcc : ':' ∉ c := splitOn_noColon ':' t c (by rw [hsp]; simp)
        have htj : t = g1 ++ ':' :: joinWith [':'] (c :: (cs ++ l2)) := by
          have := joinWith_splitOn ':' t
          rw [hsp, List.singleton_append, joinWith_cons _ _ _ (by simp)] at this
          rw [← this]; simp
        have hZ : splitOn ':' (joinWith [':'] (c :: (cs ++ l2))) = [] ++ c :: (cs ++ l2) :=
          splitOn_joinWith _ (by simp) (fun p hp' => splitOn_noColon ':' t p (by rw [hsp]; simp only [List.singleton_append]; exact List.mem_cons_of_mem _ hp'))
        obtain ⟨P, Q, hPQ, hP, hQ⟩ := splitOn_cut hZ
        have hP := hP rfl
        subst hP
        rw [List.nil_append] at hPQ
        rw [hPQ] at htj
        -- where the word is
        obtain ⟨x, m, y, hcm, hm, hlast⟩ : ∃ x m y, c = x ++ (m ++ y) ∧ SameFold w m ∧ (ws = [] → e = true → y = []) := by
          by_cases hend : ws = [] ∧ e = true
          · obtain ⟨hws, he⟩ := hend
            subst hws
            cases h2
            obtain ⟨x', hx'⟩ := (h3 he).2.1 w (by simp) c (by simp)
            obtain ⟨x, m, rfl, hx1, hm1⟩ := List.map_eq_append_iff.mp hx'.symm
            exact ⟨x, m, [], by simp, hm1, fun _ _ => rfl⟩
          · obtain ⟨a, b, hab⟩ := hc
            obtain ⟨xm, y, rfl, hxm, hy⟩ := List.map_eq_append_iff.mp hab.symm
            obtain ⟨x, m, rfl, hx, hm⟩ := List.map_eq_append_iff.mp hxm
            exact ⟨x, m, y, by simp, hm, fun h1 h2 => absurd ⟨h1, h2⟩ hend⟩
        have hyc : ':' ∉ y := by intro h; exact hcc (by rw [hcm]; simp [h])
        have hnt : NameText (y ++ Q) := by
          intro d hd; refine ht d ?_
          rw [htj, hcm]; rcases List.mem_append.mp hd with hd | hd <;> simp [hd]
        obtain ⟨s, post, hs1, hs2, hs3⟩ := (ih (y ++ Q) hnt).mpr ⟨cs, l2, by rw [hQ y hyc]; rfl, h2, by
          intro he
          obtain ⟨e1, e2, _⟩ := h3 he
          refine ⟨e1, ?_, ?_⟩
          · intro a ha b hb
            have hcs : ws ≠ [] := by rintro rfl; simp at ha
            have hcs' : cs ≠ [] := by rintro rfl; simp at hb
            refine e2 a ?_ b ?_
            · rw [List.getLast?_cons_of_ne_nil hcs]; exact ha
            · rw [List.getLast?_cons_of_ne_nil hcs']; exact hb
          · intro hws
            have hy := hlast hws he
            subst hws hy
            cases h2
            subst e1
            have := hQ [] (by simp)
            have hj := joinWith_splitOn ':' ([] ++ Q)
            rw [this] at hj
            exact hj.symm⟩
        refine ⟨g1 ++ ':' :: (x ++ (m ++ s)), post, ?_, ⟨g1, x, m, s, rfl, ?_, ?_, ?_, ?_, hs2⟩, by simp⟩
        · rw [htj, hcm]
          simp only [List.append_assoc, List.cons_append] at hs1 ⊢
          rw [hs1]
        · intro d hd
          exact nameFold_of (nameText_noColon (fun z hz => ht z (by rw [htj]; simp [hz])) hg1c d hd)
        · intro d hd
          exact nameFold_of (nameText_noColon (fun z hz => ht z (by rw [htj, hcm]; simp [hz])) (fun h => hcc (by rw [hcm]; simp [h])) d hd)
        · refine (forall2_fold ?_).mpr hm
          intro d hd
          exact nameChar_ascii (nameText_noColon (n := m) (fun z hz => ht z (by rw [htj, hcm]; simp [hz])) (fun h => hcc (by rw [hcm]; simp [h])) d hd)
        · intro hws he
          have hp := hs3 hws he
          subst hws hp
          cases hs2
          rfl

/-! ### C82 -/

theorem find_isSome_iff {r : Re} {s : Str} : (r.find s).isSome = true ↔ ∃ pre m post c, s = pre ++ (m ++ post) ∧ Re.Match r m post [] c := by
  rw [← Option.ne_none_iff_isSome, ne_eq, find_none_iff]
  constructor
  · intro h
    by_contra hne
    refine h fun pre s1 hs => matchAt_none_iff.mpr fun m post c hm hx => hne ⟨pre, m, post, c, by rw [hs, hm], hx⟩
  · rintro ⟨pre, m, post, c, hs, hm⟩ h
    exact matchAt_none_iff.mp (h pre (m ++ post) hs) m post c rfl hm

theorem matchAt_isSome_iff {r : Re} {s : Str} : (r.matchAt s).isSome = true ↔ ∃ m post c, s = m ++ post ∧ Re.Match r m post [] c := by
  rw [← Option.ne_none_iff_isSome, ne_eq, matchAt_none_iff]
  constructor
  · intro h
    by_contra hne
    exact h fun m post c hm hx => hne ⟨m, post, c, hm, hx⟩
  · rintro ⟨m, post, c, hs, hm⟩ h
    exact h m post c hs hm

theorem plain_noColon {w : Str} (h : PlainWord w) : ':' ∉ w := by intro hc; exact absurd (h.2 _ hc) (by decide)

/-- The pattern's text. -/
theorem toRegex_words (e : Bool) (w : Str) (ws : List Str) (hw : ∀ x ∈ w :: ws, PlainWord x) :
    toRegex (endWord e (joinWith [':'] (w :: ws))) = toRegexLoop (wordRe (endWord (e && ws.isEmpty) w)) true (endWords e ws) := by
  have h : endWord e (joinWith [':'] (w :: ws)) = joinWith [':'] (endWords e (w :: ws)) := by
    induction ws generalizing w with
    | nil => rfl
    | cons w' ws ih =>
      have h2 := ih w' (fun x hx => hw x (by simp only [List.mem_cons] at hx ⊢; tauto))
      rw [endWords_cons, joinWith_cons _ w _ (by simp), joinWith_cons _ (endWord _ w) _ (by rw [endWords_cons]; simp), ← h2]
      cases e <;> simp [endWord]
  have hno : ∀ p ∈ endWords e (w :: ws), ':' ∉ p := by
    clear h
    induction ws generalizing w with
    | nil =>
      intro p hp
      simp only [endWords, List.mem_singleton] at hp
      subst hp
      have := plain_noColon (hw w (by simp))
      cases e <;> simp [endWord, this]
    | cons w' ws ih =>
      intro p hp
      rw [endWords_cons] at hp
      rcases List.mem_cons.mp hp with rfl | hp
      · have := plain_noColon (hw w (by simp))
        simp [endWord, this]
      · exact ih w' (fun x hx => hw x (by simp only [List.mem_cons] at hx ⊢; tauto)) p hp
  unfold toRegex
  rw [h, splitOn_joinWith _ (by rw [endWords_cons]; simp) hno, endWords_cons]

theorem nameText_ascii {m : Str} (h : NameText m) : ∀ x ∈ m, x.toNat < 128 := by
  intro x hx
  rcases h x hx with h | h
  · exact nameChar_ascii h
  · subst h; decide

/-- What a pattern matches at one place. -/
theorem match_iff (e : Bool) (w : Str) (ws : List Str) (hw : ∀ x ∈ w :: ws, PlainWord x) (X : Str) (hX : NameText X) :
    (∃ m post c, X = m ++ post ∧ Re.Match (toRegex (endWord e (joinWith [':'] (w :: ws)))) m post [] c) ↔
      ∃ m t, X = m ++ t ∧ SameFold w m ∧ (ws = [] → e = true → t = []) ∧
        ∃ s post, t = s ++ post ∧ TailMatch e ws s post ∧ (ws = [] → e = true → post = []) := by
  have hp := hw w (by simp)
  rw [toRegex_words e w ws hw]
  constructor
  · rintro ⟨m, post, c, rfl, hm⟩
    obtain ⟨s0, s1, rfl, h1, h2⟩ := (loop_match e ws (fun x hx => hw x (by simp [hx])) _ _ _ _ _).mp hm
    obtain ⟨h3, h4, rfl⟩ := (wordRe_match _ hp.2).mp h1
    have h5 : ws = [] → e = true → s1 ++ post = [] := fun a b => h4 (by rw [a, b]; rfl)
    refine ⟨s0, s1 ++ post, by simp, (forall2_fold (nameText_ascii fun c hc => hX c (by simp [hc]))).mp h3, h5, s1, post, rfl, h2, ?_⟩
    intro a b; have := h5 a b; simp at this; exact this.2
  · rintro ⟨m, t, rfl, h1, h2, s, post, rfl, h3, h4⟩
    refine ⟨m ++ s, post, [], by simp, (loop_match e ws (fun x hx => hw x (by simp [hx])) _ _ _ _ _).mpr ⟨m, s, rfl, ?_, h3⟩⟩
    refine (wordRe_match _ hp.2).mpr ⟨(forall2_fold (nameText_ascii fun c hc => hX c (by simp [hc]))).mpr h1, ?_, rfl⟩
    intro he
    simp only [Bool.and_eq_true, List.isEmpty_iff] at he
    exact h2 he.2 he.1

/-- The components found by a pattern, wherever it begins (`start`: only at the beginning). -/
theorem components_iff (start e : Bool) (w : Str) (ws : List Str) (hw : ∀ x ∈ w :: ws, PlainWord x) (name : Str) (hn : NameText name) :
    (∃ pre m post c, name = pre ++ (m ++ post) ∧ (start = true → pre = []) ∧ Re.Match (toRegex (endWord e (joinWith [':'] (w :: ws)))) m post [] c) ↔
      ∃ l1 c cs l2, splitOn ':' name = l1 ++ c :: (cs ++ l2) ∧ Has w c ∧ List.Forall₂ Has ws cs ∧
        (start = true → l1 = [] ∧ ∃ m y, c = m ++ y ∧ SameFold w m ∧ (e = true → ws = [] → y = [])) ∧
        (e = true → l2 = [] ∧ ∀ x ∈ (w :: ws).getLast?, ∀ d ∈ (c :: cs).getLast?, x.map lowerA <:+ d.map lowerA) := by
  have hp := hw w (by simp)
  have hws : ∀ x ∈ ws, PlainWord x := fun x hx => hw x (by simp [hx])
  constructor
  · rintro ⟨pre, m0, post0, c0, hname, hpre, hm0⟩
    have hX : NameText (m0 ++ post0) := fun c hc => hn c (by rw [hname]; exact List.mem_append.mpr (.inr hc))
    obtain ⟨m, t, hmt, h1, h2, h3⟩ := (match_iff e w ws hw (m0 ++ post0) hX).mp ⟨m0, post0, c0, rfl, hm0⟩
    rw [hmt] at hname hX
    clear hm0 hmt
    have hT : NameText t := (NameText.of_append hX).2
    have hmc := sameFold_noColon hp.2 (NameText.of_append hX).1 h1
    obtain ⟨cs, l2, h4, h5, h6⟩ := (tail_iff e ws hws t hT).mp h3
    obtain ⟨hd, tl, hsp⟩ : ∃ hd tl, splitOn ':' t = hd :: tl := by
      cases hh : splitOn ':' t with
      | nil => exact absurd hh (splitOn_ne_nil _ _)
      | cons a b => exact ⟨a, b, rfl⟩
    rw [hsp] at h4
    simp only [List.tail_cons] at h4
    obtain ⟨l1, u, hu, huc, hul⟩ := splitOn_append pre
    have hall := hul (m ++ t) (m ++ hd) tl (splitOn_prefix hmc hsp)
    rw [← hname, h4] at hall
    refine ⟨l1, u ++ (m ++ hd), cs, l2, hall, ?_, h5, ?_, ?_⟩
    · unfold Has
      simp only [List.map_append]
      rw [show m.map lowerA = w.map lowerA from h1]
      exact ⟨u.map lowerA, hd.map lowerA, by simp⟩
    · intro hs
      have := hpre hs
      subst this
      have hl : l1 = [] ∧ u = [] := by
        have : splitOn ':' [] = [[]] := rfl
        rw [this] at hu
        cases l1 with
        | nil => simp at hu; exact ⟨rfl, hu⟩
        | cons a l => simp at hu
      obtain ⟨rfl, rfl⟩ := hl
      refine ⟨rfl, m, hd, rfl, h1, ?_⟩
      intro he hws'
      have := h2 hws' he
      rw [this] at hsp
      simp [splitOn] at hsp
      exact hsp.1
    · intro he
      obtain ⟨e1, e2, e3⟩ := h6 he
      refine ⟨e1, ?_⟩
      cases ws with
      | nil =>
        cases h5
        have ht := h2 rfl he
        rw [ht] at hsp
        simp [splitOn] at hsp
        intro a ha b hb
        simp only [List.getLast?_singleton, Option.mem_def, Option.some.injEq] at ha hb
        subst ha hb
        rw [hsp.1, List.append_nil, List.map_append, show m.map lowerA = _ from h1]
        exact ⟨u.map lowerA, rfl⟩
      | cons w' ws =>
        cases h5 with
        | @cons _ d _ cs hc h5 =>
          intro a ha b hb
          rw [List.getLast?_cons_cons] at ha hb
          exact e2 a ha b hb
  · rintro ⟨l1, c, cs, l2, hsp, hc, hcs, hstart, hend⟩
    have hcc : ':' ∉ c := splitOn_noColon ':' name c (by rw [hsp]; simp)
    obtain ⟨P, Q, hPQ, hP, hQ⟩ := splitOn_cut hsp
    obtain ⟨x, m, y, hcm, hm, hx, hlast⟩ : ∃ x m y, c = x ++ (m ++ y) ∧ SameFold w m ∧ (start = true → x = []) ∧ (ws = [] → e = true → y = []) := by
      by_cases hs : start = true
      · obtain ⟨_, m, y, h1, h2, h3⟩ := hstart hs
        exact ⟨[], m, y, h1, h2, fun _ => rfl, fun a b => h3 b a⟩
      · by_cases he : ws = [] ∧ e = true
        · obtain ⟨hw1, he⟩ := he
          subst hw1
          cases hcs
          obtain ⟨x', hx'⟩ := (hend he).2 w (by simp) c (by simp)
          obtain ⟨x, m, rfl, _, hm1⟩ := List.map_eq_append_iff.mp hx'.symm
          exact ⟨x, m, [], by simp, hm1, fun h => absurd h hs, fun _ _ => rfl⟩
        · obtain ⟨a, b, hab⟩ := hc
          obtain ⟨xm, y, rfl, hxm, hy⟩ := List.map_eq_append_iff.mp hab.symm
          obtain ⟨x, m, rfl, hx, hm⟩ := List.map_eq_append_iff.mp hxm
          exact ⟨x, m, y, by simp, hm, fun h => absurd h hs, fun h1 h2 => absurd ⟨h1, h2⟩ he⟩
    have hname : name = (P ++ x) ++ (m ++ (y ++ Q)) := by rw [hPQ, hcm]; simp
    have hyc : ':' ∉ y := by intro h; exact hcc (by rw [hcm]; simp [h])
    have hX : NameText (m ++ (y ++ Q)) := fun d hd => hn d (by rw [hname]; exact List.mem_append.mpr (.inr hd))
    have hT := (NameText.of_append hX).2
    have hnil : ws = [] → e = true → y ++ Q = [] := by
      intro hw1 he
      have hy := hlast hw1 he
      subst hw1
      cases hcs
      have h2 := hQ [] (by simp)
      rw [(hend he).1] at h2
      have hj := joinWith_splitOn ':' ([] ++ Q)
      rw [h2] at hj
      rw [hy]; exact hj.symm
    obtain ⟨s, post, hs1, hs2, hs3⟩ := (tail_iff e ws hws (y ++ Q) hT).mpr ⟨cs, l2, by rw [hQ y hyc]; rfl, hcs, fun he => ⟨(hend he).1, by
        intro a ha b hb
        have hne : ws ≠ [] := by rintro rfl; simp at ha
        have hne' : cs ≠ [] := by rintro rfl; simp at hb
        refine (hend he).2 a ?_ b ?_
        · rw [List.getLast?_cons_of_ne_nil hne]; exact ha
        · rw [List.getLast?_cons_of_ne_nil hne']; exact hb, fun hw1 => hnil hw1 he⟩⟩
    obtain ⟨m1, post1, c1, h1, h2⟩ := (match_iff e w ws hw (m ++ (y ++ Q)) hX).mpr ⟨m, y ++ Q, rfl, hm, hnil, s, post, hs1, hs2, hs3⟩
    refine ⟨P ++ x, m1, post1, c1, by rw [hname, h1], ?_, h2⟩
    intro hs
    rw [hP (hstart hs).1, hx hs]; rfl

theorem head_ne_caret {w : Str} {ws : List Str} (e : Bool) (hw : PlainWord w) : ∃ c r, endWord e (joinWith [':'] (w :: ws)) = c :: r ∧ c ≠ '^' := by
  obtain ⟨c, w', rfl⟩ : ∃ c w', w = c :: w' := by
    cases w with
    | nil => exact absurd rfl hw.1
    | cons c w' => exact ⟨c, w', rfl⟩
  have hc : c ≠ '^' := by rintro rfl; exact absurd (hw.2 '^' (by simp)) (by decide)
  cases ws with
  | nil => cases e <;> exact ⟨c, _, rfl, hc⟩
  | cons d ds =>
    rw [joinWith_cons _ _ _ (by simp)]
    cases e <;> exact ⟨c, _, rfl, hc⟩

theorem patternMatches_plain {p : Str} {c : Char} {r : Str} (h : p = c :: r) (hc : c ≠ '^') (name : Str) :
    patternMatches p name = ((toRegex p).find name).isSome := by
  subst h
  unfold patternMatches
  split
  · rename_i hh; cases hh; exact absurd rfl hc
  · rfl

/-- C82: a pattern `w1:w2:…` finds exactly the accounts with directly consecutive components containing the words in order, whatever the
case. -/
theorem C82_components (w : Str) (ws : List Str) (hw : ∀ x ∈ w :: ws, PlainWord x) (name : Str) (hn : NameText name) :
    patternMatches (joinWith [':'] (w :: ws)) name = true ↔
      ∃ l1 cs l2, splitOn ':' name = l1 ++ cs ++ l2 ∧ List.Forall₂ Has (w :: ws) cs := by
  obtain ⟨c, r, hcr, hc⟩ := head_ne_caret (ws := ws) false (hw w (by simp))
  rw [patternMatches_plain (p := joinWith [':'] (w :: ws)) hcr hc, find_isSome_iff]
  have key := components_iff false false w ws hw name hn
  constructor
  · rintro ⟨pre, m, post, c, h1, h2⟩
    obtain ⟨l1, c, cs, l2, h3, h4, h5, _⟩ := key.mp ⟨pre, m, post, c, h1, by simp, h2⟩
    exact ⟨l1, c :: cs, l2, by rw [h3]; simp, .cons h4 h5⟩
  · rintro ⟨l1, cs, l2, h1, h2⟩
    cases h2 with
    | @cons _ c _ cs hc h2 =>
      obtain ⟨pre, m, post, c, h3, _, h4⟩ := key.mpr ⟨l1, c, cs, l2, by rw [h1]; simp, hc, h2, by simp, by simp⟩
      exact ⟨pre, m, post, c, h3, h4⟩

/-- C82: with `$` the components are the last ones and the last word ends the name. -/
theorem C82_end (w : Str) (ws : List Str) (hw : ∀ x ∈ w :: ws, PlainWord x) (name : Str) (hn : NameText name) :
    patternMatches (joinWith [':'] (w :: ws) ++ ['$']) name = true ↔
      ∃ l1 cs, splitOn ':' name = l1 ++ cs ∧ List.Forall₂ Has (w :: ws) cs ∧
        ∀ x ∈ (w :: ws).getLast?, ∀ d ∈ cs.getLast?, x.map lowerA <:+ d.map lowerA := by
  obtain ⟨c, r, hcr, hc⟩ := head_ne_caret (ws := ws) true (hw w (by simp))
  rw [patternMatches_plain (p := joinWith [':'] (w :: ws) ++ ['$']) hcr hc, find_isSome_iff]
  have key := components_iff false true w ws hw name hn
  constructor
  · rintro ⟨pre, m, post, c, h1, h2⟩
    obtain ⟨l1, c, cs, l2, h3, h4, h5, _, h6⟩ := key.mp ⟨pre, m, post, c, h1, by simp, h2⟩
    obtain ⟨h6, h7⟩ := h6 rfl
    subst h6
    exact ⟨l1, c :: cs, by rw [h3]; simp, .cons h4 h5, h7⟩
  · rintro ⟨l1, cs, h1, h2, h6⟩
    cases h2 with
    | @cons _ c _ cs hc h2 =>
      obtain ⟨pre, m, post, c, h3, _, h4⟩ := key.mpr ⟨l1, c, cs, [], by rw [h1]; simp, hc, h2, by simp, fun _ => ⟨rfl, h6⟩⟩
      exact ⟨pre, m, post, c, h3, h4⟩

/-- C82: with `^` the components are the first ones and the first word begins the name. -/
theorem C82_start (w : Str) (ws : List Str) (hw : ∀ x ∈ w :: ws, PlainWord x) (name : Str) (hn : NameText name) :
    patternMatches ('^' :: joinWith [':'] (w :: ws)) name = true ↔
      ∃ c cs l2, splitOn ':' name = c :: (cs ++ l2) ∧ w.map lowerA <+: c.map lowerA ∧ List.Forall₂ Has ws cs := by
  show ((toRegex (joinWith [':'] (w :: ws))).matchAt name).isSome = true ↔ _
  rw [matchAt_isSome_iff]
  have key := components_iff true false w ws hw name hn
  constructor
  · rintro ⟨m, post, c, h1, h2⟩
    obtain ⟨l1, c, cs, l2, h3, h4, h5, h6, _⟩ := key.mp ⟨[], m, post, c, by rw [h1]; rfl, by simp, h2⟩
    obtain ⟨rfl, m, y, hc, hm, _⟩ := h6 rfl
    refine ⟨c, cs, l2, by rw [h3]; rfl, ⟨y.map lowerA, ?_⟩, h5⟩
    rw [hc, List.map_append, show m.map lowerA = _ from hm]
  · rintro ⟨c, cs, l2, h1, ⟨y', h2⟩, h5⟩
    obtain ⟨m, y, rfl, hm, hy⟩ := List.map_eq_append_iff.mp h2.symm
    obtain ⟨pre, m', post, c', h3, h4, h6⟩ := key.mpr ⟨[], m ++ y, cs, l2, by rw [h1]; rfl, ⟨[], y', by simpa using h2⟩, h5,
      fun _ => ⟨rfl, m, y, rfl, hm, by simp⟩, by simp⟩
    have := h4 rfl
    subst this
    exact ⟨m', post, c', by rw [h3]; rfl, h6⟩

theorem toRegex_gap {a b : Str} (ha : PlainWord a) (hb : PlainWord b) : toRegex (a ++ (':' :: ':' :: b)) = .seq (.seq (wordRe a) multipleRe) (wordRe b) := by
  unfold toRegex
  rw [splitOn_append_sep _ _ _ (plain_noColon ha), show splitOn ':' (':' :: b) = [] :: splitOn ':' b from by rw [splitOn, if_pos rfl],
    splitOn_noSep _ _ (plain_noColon hb)]
  show toRegexLoop (wordRe a) true [[], b] = _
  rw [toRegexLoop, if_pos rfl, if_pos rfl, toRegexLoop, if_neg hb.1, toRegexLoop]
  rfl

/-- C82: a pattern `a::b` finds exactly the accounts whose full name has `b` somewhere after `a`. -/
theorem C82_gap (a b : Str) (ha : PlainWord a) (hb : PlainWord b) (name : Str) (hn : NameText name) :
    patternMatches (a ++ (':' :: ':' :: b)) name = true ↔
      ∃ x y z, name.map lowerA = x ++ (a.map lowerA ++ (y ++ (b.map lowerA ++ z))) := by
  obtain ⟨c, r, hcr⟩ : ∃ c r, a = c :: r := by
    cases a with
    | nil => exact absurd rfl ha.1
    | cons c r => exact ⟨c, r, rfl⟩
  have hc : c ≠ '^' := by rintro rfl; exact absurd (ha.2 '^' (by rw [hcr]; simp)) (by decide)
  rw [patternMatches_plain (p := a ++ (':' :: ':' :: b)) (c := c) (r := r ++ (':' :: ':' :: b)) (by rw [hcr]; rfl) hc, find_isSome_iff, toRegex_gap ha hb]
  have wa := fun {s rest : Str} {c c' : Caps} => wordRe_match (s := s) (rest := rest) (c := c) (c' := c') false ha.2
  have wb := fun {s rest : Str} {c c' : Caps} => wordRe_match (s := s) (rest := rest) (c := c) (c' := c') false hb.2
  constructor
  · rintro ⟨pre, m, post, c', rfl, hm⟩
    obtain ⟨s, mb, c1, rfl, h1, h2⟩ := seq_match_iff.mp hm
    obtain ⟨ma, g, c2, rfl, h3, h4⟩ := seq_match_iff.mp h1
    have h5 := (forall2_fold (nameText_ascii fun c hc => hn c (by simp [hc]))).mp (wa.mp h3).1
    have h6 := (forall2_fold (nameText_ascii fun c hc => hn c (by simp [hc]))).mp (wb.mp h2).1
    refine ⟨pre.map lowerA, g.map lowerA, post.map lowerA, ?_⟩
    simp only [List.map_append, List.append_assoc]
    rw [show ma.map lowerA = _ from h5, show mb.map lowerA = _ from h6]
  · rintro ⟨x, y, z, h⟩
    obtain ⟨pre, t1, rfl, _, h⟩ := List.map_eq_append_iff.mp h
    obtain ⟨ma, t2, rfl, hma, h⟩ := List.map_eq_append_iff.mp h
    obtain ⟨g, t3, rfl, _, h⟩ := List.map_eq_append_iff.mp h
    obtain ⟨mb, post, rfl, hmb, _⟩ := List.map_eq_append_iff.mp h
    refine ⟨pre, (ma ++ g) ++ mb, post, [], by simp, seq_match_iff.mpr ⟨ma ++ g, mb, [], rfl, seq_match_iff.mpr ⟨ma, g, [], rfl, ?_, ?_⟩, ?_⟩⟩
    · exact wa.mpr ⟨(forall2_fold (nameText_ascii fun c hc => hn c (by simp [hc]))).mpr hma, by simp, rfl⟩
    · refine star_cls_match_iff.mpr ⟨?_, rfl⟩
      intro c hc
      rcases hn c (by simp [hc]) with h | h
      · simp [nameFold_of h]
      · simp [h]
    · exact wb.mpr ⟨(forall2_fold (nameText_ascii fun c hc => hn c (by simp [hc]))).mpr hmb, by simp, rfl⟩

/-! The cases of coin_test.go. -/

example : patternMatches (str "ex") (str "Investments:Forex:USD") = true ∧ patternMatches (str "ex") (str "Fees") = false := by decide +kernel
example : patternMatches (str "^ex") (str "Expenses") = true ∧ patternMatches (str "^ex") (str "Income:Extra") = false := by decide +kernel
example : patternMatches (str "e::c") (str "Expenses:Travel:CAD") = true ∧ patternMatches (str "e::c") (str "Root") = false := by decide +kernel
example : patternMatches (str "l::mc$") (str "Liabilities:Credit:MC") = true ∧ patternMatches (str "l::mc$") (str "Liabilities:Credit:MC2") = false := by
  decide +kernel
example : patternMatches (str "inv:usd") (str "Investments:Forex:USD") = false ∧ patternMatches (str "for:usd") (str "Investments:Forex:USD") = true := by
  decide +kernel

example : (∀ x ∈ [str "for", str "usd"], PlainWord x) ∧ NameText (str "Investments:Forex:USD") := by
  have h : (str "Investments:Forex:USD").all (fun c => isNameChar c || decide (c = ':')) = true := by decide +kernel
  have hp : ∀ x ∈ [str "for", str "usd"], x ≠ [] ∧ x.all isNameChar = true := by decide +kernel
  refine ⟨fun x hx => ⟨(hp x hx).1, List.all_eq_true.mp (hp x hx).2⟩, fun c hc => ?_⟩
  simpa using List.all_eq_true.mp h c hc

end Verif
