import Verif.Lemmas.RunsTo
/-
A match does not depend on what follows it, for expressions without `$`.
-/
namespace Verif

/-- The expression does not ask for the end of the text. -/
def NoEot : Re → Prop
  | .eps => True
  | .cls _ => True
  | .seq a b => NoEot a ∧ NoEot b
  | .alt a b => NoEot a ∧ NoEot b
  | .star a => NoEot a
  | .grp _ a => NoEot a
  | .eot => False

theorem starLoop_kNone (a : Re) (k : ReK) (m : Nat) (hk : ∀ s c, s.length < m → k s c = none) : ∀ (n : Nat) (s : Str) (c : Caps), s.length < m →
    starLoop a.run k n s c = none := by
  intro n
  induction n with
  | zero => intro s c h; exact hk s c h
  | succ n ih =>
    intro s c h
    rw [starLoop, hk s c h, run_kNone]
    · rfl
    · intro s' c' hl
      split
      · exact ih s' c' (by omega)
      · rfl

/-- Matching a text with something after it, as far as the text goes, is matching the text. -/
theorem Re.run_cut (r : Re) : NoEot r → ∀ (z : Str) (k : ReK) (s : Str) (c : Caps),
    r.run (fun s' c' => k (s' ++ z) c') s c = r.run (fun s' c' => if z.length ≤ s'.length then k s' c' else none) (s ++ z) c := by
  induction r with
  | eps => intro _ z k s c; simp [Re.run]
  | cls p =>
    intro _ z k s c
    cases s with
    | nil =>
      cases z with
      | nil => rfl
      | cons x z => simp [Re.run]; intro _ h; omega
    | cons x s => simp [Re.run]
  | seq a b iha ihb =>
    intro h z k s c
    rw [run_seq, run_seq]
    have e1 : b.run (fun s' c' => k (s' ++ z) c') = fun s' c' => b.run (fun s' c' => if z.length ≤ s'.length then k s' c' else none) (s' ++ z) c' := by
      funext s' c'; exact ihb h.2 z k s' c'
    rw [e1, iha h.1]
    congr 1
    funext s' c'
    split
    · rfl
    · rw [run_kNone]
      intro s'' c'' hl
      rw [if_neg (by omega)]
  | alt a b iha ihb =>
    intro h z k s c
    rw [run_alt, run_alt, iha h.1, ihb h.2]
  | star a iha =>
    intro h z k s c
    show starLoop a.run _ s.length s c = starLoop a.run _ (s ++ z).length (s ++ z) c
    rw [starLoop_fuel a _ s.length s.length (s ++ z).length s c (Nat.le_refl _) (Nat.le_refl _) (by simp)]
    generalize (s ++ z).length = n
    induction n generalizing s c with
    | zero => simp [starLoop]
    | succ n ih =>
      rw [starLoop, starLoop]
      have e1 : (fun s' c' => if s'.length < s.length then starLoop a.run (fun s' c' => k (s' ++ z) c') n s' c' else none) =
          fun s' c' => (fun t c' => if t.length < (s ++ z).length then
            starLoop a.run (fun s' c' => if z.length ≤ s'.length then k s' c' else none) n t c' else none) (s' ++ z) c' := by
        funext s' c'
        simp only [List.length_append, Nat.add_lt_add_iff_right]
        rw [ih]
      rw [e1, iha h z (fun t c' => if t.length < (s ++ z).length then
            starLoop a.run (fun s' c' => if z.length ≤ s'.length then k s' c' else none) n t c' else none)]
      have e2 : (fun s' c' => if z.length ≤ s'.length then (fun t c' => if t.length < (s ++ z).length then
            starLoop a.run (fun s' c' => if z.length ≤ s'.length then k s' c' else none) n t c' else none) s' c' else none) =
          fun s' c' => if s'.length < (s ++ z).length then
            starLoop a.run (fun s' c' => if z.length ≤ s'.length then k s' c' else none) n s' c' else none := by
        funext s' c'
        by_cases hl : z.length ≤ s'.length
        · rw [if_pos hl]
        · rw [if_neg hl, starLoop_kNone a _ z.length (fun s c h => if_neg (by omega)) n s' c' (by omega)]
          split <;> rfl
      rw [e2]
      simp
  | grp n a iha =>
    intro h z k s c
    rw [run_grp, run_grp]
    have e1 : (fun s' c' => k (s' ++ z) ((n, s.take (s.length - s'.length)) :: c')) =
        fun s' c' => (fun t c' => k t ((n, (s ++ z).take ((s ++ z).length - t.length)) :: c')) (s' ++ z) c' := by
      funext s' c'
      have : (s ++ z).take ((s ++ z).length - (s' ++ z).length) = s.take (s.length - s'.length) := by
        rw [List.length_append, List.length_append, Nat.add_sub_add_right, List.take_append_of_le_length (by omega)]
      show _ = k (s' ++ z) ((n, (s ++ z).take ((s ++ z).length - (s' ++ z).length)) :: c')
      rw [this]
    rw [e1, iha h z (fun t c' => k t ((n, (s ++ z).take ((s ++ z).length - t.length)) :: c'))]
  | eot => intro h; cases h

/-- Replacing what comes after a match by something that fails when it fails and succeeds on the result. -/
theorem Re.run_result (r : Re) (res res1 : Caps × Str) : ∀ (k k1 : ReK), (∀ s c, (k s c = some res → k1 s c = some res1) ∧ (k s c = none → k1 s c = none)) →
    ∀ s c, (r.run k s c = some res → r.run k1 s c = some res1) ∧ (r.run k s c = none → r.run k1 s c = none) := by
  have or_ : ∀ a b a1 b1 : Option (Caps × Str), ((a = some res → a1 = some res1) ∧ (a = none → a1 = none)) →
      ((b = some res → b1 = some res1) ∧ (b = none → b1 = none)) →
      (orElse a b = some res → orElse a1 b1 = some res1) ∧ (orElse a b = none → orElse a1 b1 = none) := by
    intro a b a1 b1 ha hb
    cases a with
    | none => rw [ha.2 rfl]; exact hb
    | some x =>
      constructor
      · intro h; rw [ha.1 h]; rfl
      · intro h; cases h
  induction r with
  | eps => intro k k1 h s c; exact h s c
  | cls p =>
    intro k k1 h s c
    cases s with
    | nil => exact ⟨fun h => (by cases h), fun _ => rfl⟩
    | cons x s =>
      simp only [run_cls_cons]
      split
      · exact h s c
      · exact ⟨fun h => (by cases h), fun _ => rfl⟩
  | seq a b iha ihb => intro k k1 h s c; exact iha _ _ (ihb k k1 h) s c
  | alt a b iha ihb => intro k k1 h s c; exact or_ _ _ _ _ (iha k k1 h s c) (ihb k k1 h s c)
  | star a iha =>
    intro k k1 h s c
    show (starLoop a.run k s.length s c = _ → starLoop a.run k1 s.length s c = _) ∧ (starLoop a.run k s.length s c = _ → starLoop a.run k1 s.length s c = _)
    generalize s.length = n
    induction n generalizing s c with
    | zero => exact h s c
    | succ n ih =>
      rw [starLoop, starLoop]
      refine or_ _ _ _ _ (iha _ _ ?_ s c) (h s c)
      intro s' c'
      split
      · exact ih s' c'
      · exact ⟨fun h => (by cases h), fun _ => rfl⟩
  | grp n a iha =>
    intro k k1 h s c
    exact iha _ _ (fun s' c' => h s' _) s c
  | eot =>
    intro k k1 h s c
    simp only [Re.run]
    split
    · exact h s c
    · exact ⟨fun h => (by cases h), fun _ => rfl⟩

/-- The matched text alone is matched the same way. -/
theorem Re.matchAt_cut {r : Re} (hr : NoEot r) {x z : Str} {c : Caps} (h : r.matchAt (x ++ z) = some (c, z)) : r.matchAt x = some (c, []) := by
  have h1 := (Re.run_result r (c, z) (c, []) reDone (fun s' c' => if z.length ≤ s'.length then some (c', s'.take (s'.length - z.length)) else none)
    (fun s c' => ⟨fun e => by
      simp only [reDone, Option.some.injEq, Prod.mk.injEq] at e
      obtain ⟨rfl, rfl⟩ := e
      simp, fun e => by cases e⟩) (x ++ z) []).1 h
  rw [← Re.run_cut r hr z (fun s' c' => some (c', s'.take (s'.length - z.length))) x []] at h1
  unfold Re.matchAt
  rw [← h1]
  congr 1
  funext s' c'
  simp [reDone]

end Verif
