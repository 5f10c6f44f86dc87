import Verif.Lemmas.Regex
/-
A calculus for the matcher's preferred match: `RunsTo r x rest c c'` says that on the text `x ++ rest` the matcher first tries to
match exactly `x` with `r` (as far as the continuation accepts), and `NoMatch r s` that `r` matches no prefix of `s`.
-/
namespace Verif

def RunsTo (r : Re) (x rest : Str) (c c' : Caps) : Prop :=
  ∀ (k : ReK) (res), k rest c' = some res → r.run k (x ++ rest) c = some res

def NoMatch (r : Re) (s : Str) : Prop := ∀ s1 s2 c c', s = s1 ++ s2 → ¬ Re.Match r s1 s2 c c'

theorem NoMatch.run {r : Re} {s : Str} (h : NoMatch r s) (k : ReK) (c : Caps) : r.run k s c = none :=
  Re.run_none (fun s1 s2 c' e hm => absurd hm (h s1 s2 c c' e))

theorem RunsTo.matchAt {r : Re} {x rest : Str} {c' : Caps} (h : RunsTo r x rest [] c') : r.matchAt (x ++ rest) = some (c', rest) :=
  h reDone _ rfl

theorem RunsTo.find {r : Re} {x rest : Str} {c' : Caps} (h : RunsTo r x rest [] c') : r.find (x ++ rest) = some ([], c', rest) :=
  find_at h.matchAt

theorem RunsTo.matches {r : Re} {x rest : Str} {c' : Caps} (h : RunsTo r x rest [] c') : r.matches (x ++ rest) = some c' :=
  matches_at h.matchAt

namespace RunsTo

theorem eps (rest : Str) (c : Caps) : RunsTo .eps [] rest c c := fun _ _ h => h

theorem cls {p : Char → Bool} {x : Char} (h : p x = true) (rest : Str) (c : Caps) : RunsTo (.cls p) [x] rest c c := by
  intro k res hk; simp [h, hk]

theorem ch (x : Char) (rest : Str) (c : Caps) : RunsTo (.ch x) [x] rest c c := cls (by simp) rest c

theorem lit (l rest : Str) (c : Caps) : RunsTo (.lit l) l rest c c := by
  intro k res hk; rw [run_lit]; exact hk

theorem seq {a b : Re} {x y rest : Str} {c c1 c2 : Caps} (ha : RunsTo a x (y ++ rest) c c1) (hb : RunsTo b y rest c1 c2) :
    RunsTo (.seq a b) (x ++ y) rest c c2 := by
  intro k res hk
  rw [run_seq, List.append_assoc]
  exact ha _ _ (hb _ _ hk)

theorem grp {n : Str} {a : Re} {x rest : Str} {c c1 : Caps} (ha : RunsTo a x rest c c1) : RunsTo (.grp n a) x rest c ((n, x) :: c1) := by
  intro k res hk
  rw [run_grp]
  refine ha _ _ ?_
  simp only [take_sub]; exact hk

theorem altL {a b : Re} {x rest : Str} {c c' : Caps} (ha : RunsTo a x rest c c') : RunsTo (.alt a b) x rest c c' := by
  intro k res hk
  rw [run_alt, ha k res hk]; rfl

theorem altR {a b : Re} {x rest : Str} {c c' : Caps} (hn : NoMatch a (x ++ rest)) (hb : RunsTo b x rest c c') :
    RunsTo (.alt a b) x rest c c' := by
  intro k res hk
  rw [run_alt, hn.run, hb k res hk]; rfl

theorem opt {a : Re} {x rest : Str} {c c' : Caps} (ha : RunsTo a x rest c c') : RunsTo (.opt a) x rest c c' := altL ha

theorem optNone {a : Re} {rest : Str} {c : Caps} (hn : NoMatch a rest) : RunsTo (.opt a) [] rest c c := altR hn (eps rest c)

theorem star {p : Char → Bool} {x rest : Str} (hp : ∀ y ∈ x, p y = true) (hr : ∀ y t, rest = y :: t → p y = false) (c : Caps) :
    RunsTo (.star (.cls p)) x rest c c := fun _ _ hk => star_cls_some hp hr hk

theorem plus {p : Char → Bool} {x rest : Str} (hne : x ≠ []) (hp : ∀ y ∈ x, p y = true) (hr : ∀ y t, rest = y :: t → p y = false)
    (c : Caps) : RunsTo (.plus (.cls p)) x rest c c := fun _ _ hk => plus_cls_some hne hp hr hk

theorem eot (c : Caps) : RunsTo .eot [] [] c c := by
  intro k res hk; exact hk

theorem nil_left {r : Re} {x x' rest : Str} {c c' : Caps} (h : RunsTo r x rest c c') (e : x = x') : RunsTo r x' rest c c' := e ▸ h

end RunsTo

namespace NoMatch

theorem cls {p : Char → Bool} {s : Str} (h : ∀ x t, s = x :: t → p x = false) : NoMatch (.cls p) s := by
  intro s1 s2 c c' e hm
  rw [cls_match_iff] at hm
  obtain ⟨x, rfl, hp, _⟩ := hm
  have := h x s2 e
  rw [this] at hp; exact absurd hp (by decide)

theorem ch {d : Char} {s : Str} (h : ∀ x t, s = x :: t → x ≠ d) : NoMatch (.ch d) s :=
  cls (fun x t e => by simpa using h x t e)

theorem seqL {a b : Re} {s : Str} (h : NoMatch a s) : NoMatch (.seq a b) s := by
  intro s1 s2 c c' e hm
  rw [seq_match_iff] at hm
  obtain ⟨t1, t2, c1, rfl, h1, _⟩ := hm
  exact h t1 (t2 ++ s2) c c1 (by simp [e]) h1

theorem seqR {a b : Re} {s : Str} (h : ∀ s1 s2 c c', s = s1 ++ s2 → Re.Match a s1 s2 c c' → NoMatch b s2) : NoMatch (.seq a b) s := by
  intro s1 s2 c c' e hm
  rw [seq_match_iff] at hm
  obtain ⟨t1, t2, c1, rfl, h1, h2⟩ := hm
  exact h t1 (t2 ++ s2) c c1 (by simp [e]) h1 t2 s2 c1 c' rfl h2

theorem alt {a b : Re} {s : Str} (ha : NoMatch a s) (hb : NoMatch b s) : NoMatch (.alt a b) s := by
  intro s1 s2 c c' e hm
  rw [alt_match_iff] at hm
  rcases hm with hm | hm
  · exact ha _ _ _ _ e hm
  · exact hb _ _ _ _ e hm

theorem grp {n : Str} {a : Re} {s : Str} (ha : NoMatch a s) : NoMatch (.grp n a) s := by
  intro s1 s2 c c' e hm
  rw [grp_match_iff] at hm
  obtain ⟨c1, h1, _⟩ := hm
  exact ha _ _ _ _ e h1

theorem plus {p : Char → Bool} {s : Str} (h : ∀ x t, s = x :: t → p x = false) : NoMatch (.plus (.cls p)) s := seqL (cls h)

theorem lit {l s : Str} (h : ∀ t, s ≠ l ++ t) : NoMatch (.lit l) s := by
  intro s1 s2 c c' e hm
  rw [lit_match_iff] at hm
  obtain ⟨rfl, _⟩ := hm
  exact h s2 e

theorem eot {s : Str} (h : s ≠ []) : NoMatch .eot s := by
  intro s1 s2 c c' e hm
  rw [eot_match_iff] at hm
  obtain ⟨rfl, rfl, _⟩ := hm
  exact h (by simpa using e)

theorem find {r : Re} {s : Str} (h : ∀ pre t, s = pre ++ t → NoMatch r t) : r.find s = none := by
  rw [find_none_iff]
  intro pre t e
  exact (h pre t e).run _ _

theorem noMatches {r : Re} {s : Str} (h : ∀ pre t, s = pre ++ t → NoMatch r t) : r.matches s = none := by
  unfold Re.matches; rw [NoMatch.find h]; rfl

end NoMatch

/-! ### Repetition of an arbitrary expression -/

theorem run_kNone (r : Re) (k : ReK) (s : Str) (c : Caps) (h : ∀ s' c', s'.length ≤ s.length → k s' c' = none) : r.run k s c = none :=
  Re.run_none (fun s1 s2 c' e _ => h s2 c' (by rw [e]; simp))

/-- The bound on the iterations does not matter once it reaches the length of the text. -/
theorem starLoop_fuel (a : Re) (k : ReK) : ∀ (l n n' : Nat) (s : Str) (c : Caps), s.length ≤ l → s.length ≤ n → s.length ≤ n' →
    starLoop a.run k n s c = starLoop a.run k n' s c := by
  have empty : ∀ (n : Nat) (s : Str) (c : Caps), s.length = 0 → starLoop a.run k n s c = k s c := by
    intro n s c h
    cases n with
    | zero => rfl
    | succ n =>
      simp only [starLoop]
      rw [run_kNone a _ s c (by intro s' c' _; rw [if_neg (by omega)])]
      rfl
  intro l
  induction l with
  | zero => intro n n' s c h _ _; rw [empty n s c (by omega), empty n' s c (by omega)]
  | succ l ih =>
    intro n n' s c h h1 h2
    by_cases h0 : s.length = 0
    · rw [empty n s c h0, empty n' s c h0]
    · obtain ⟨n, rfl⟩ := Nat.exists_eq_succ_of_ne_zero (show n ≠ 0 by omega)
      obtain ⟨n', rfl⟩ := Nat.exists_eq_succ_of_ne_zero (show n' ≠ 0 by omega)
      simp only [starLoop]
      congr 2
      funext s' c'
      by_cases hl : s'.length < s.length
      · rw [if_pos hl, if_pos hl, ih n n' s' c' (by omega) (by omega) (by omega)]
      · rw [if_neg hl, if_neg hl]

theorem RunsTo.starNil {a : Re} {rest : Str} (h : NoMatch a rest) (c : Caps) : RunsTo (.star a) [] rest c c := by
  intro k res hk
  show starLoop a.run k ([] ++ rest).length ([] ++ rest) c = some res
  simp only [List.nil_append]
  cases hl : rest.length with
  | zero => exact hk
  | succ n =>
    simp only [starLoop]
    rw [h.run]; exact hk

theorem RunsTo.starCons {a : Re} {x y rest : Str} {c c1 c2 : Caps} (hne : x ≠ []) (ha : RunsTo a x (y ++ rest) c c1)
    (hs : RunsTo (.star a) y rest c1 c2) : RunsTo (.star a) (x ++ y) rest c c2 := by
  intro k res hk
  have h1 : starLoop a.run k (y ++ rest).length (y ++ rest) c1 = some res := hs k res hk
  have hx : 0 < x.length := List.length_pos_iff.mpr hne
  show starLoop a.run k ((x ++ y) ++ rest).length ((x ++ y) ++ rest) c = some res
  rw [List.append_assoc]
  cases hl : (x ++ (y ++ rest)).length with
  | zero => rw [List.length_append] at hl; omega
  | succ n =>
    simp only [starLoop]
    rw [ha _ res]
    · rfl
    · rw [if_pos (by simp; omega)]
      rw [starLoop_fuel a k _ n _ (y ++ rest) c1 (Nat.le_refl _) (by simp at hl ⊢; omega) (Nat.le_refl _)]
      exact h1

/-- No match of `p+ r` when `r` matches nowhere from within the run of `p` characters. -/
theorem NoMatch.plusThen {p : Char → Bool} {r : Re} {w rest : Str} (hr : ∀ x t, rest = x :: t → p x = false)
    (h : ∀ w1 w2, w = w1 ++ w2 → NoMatch r (w2 ++ rest)) : NoMatch (.seq (.plus (.cls p)) r) (w ++ rest) := by
  refine NoMatch.seqR (fun s1 s2 c c' e hm => ?_)
  rw [plus_cls_match_iff] at hm
  obtain ⟨_, hp, _⟩ := hm
  rcases List.append_eq_append_iff.mp e with ⟨u, e1, e2⟩ | ⟨u, e1, e2⟩
  · cases u with
    | nil =>
      simp only [List.append_nil] at e1
      simp only [List.nil_append] at e2
      subst e2
      exact h w [] (by simp)
    | cons x u =>
      have := hr x (u ++ s2) (by rw [e2]; rfl)
      have h2 := hp x (by rw [e1]; simp)
      rw [this] at h2; exact absurd h2 (by decide)
  · subst e2
    exact h s1 u e1

theorem NoMatch.starThen {p : Char → Bool} {r : Re} {w rest : Str} (hr : ∀ x t, rest = x :: t → p x = false)
    (h : ∀ w1 w2, w = w1 ++ w2 → NoMatch r (w2 ++ rest)) : NoMatch (.seq (.star (.cls p)) r) (w ++ rest) := by
  refine NoMatch.seqR (fun s1 s2 c c' e hm => ?_)
  rw [star_cls_match_iff] at hm
  obtain ⟨hp, _⟩ := hm
  rcases List.append_eq_append_iff.mp e with ⟨u, e1, e2⟩ | ⟨u, e1, e2⟩
  · cases u with
    | nil =>
      simp only [List.append_nil] at e1
      simp only [List.nil_append] at e2
      subst e2
      exact h w [] (by simp)
    | cons x u =>
      have := hr x (u ++ s2) (by rw [e2]; rfl)
      have h2 := hp x (by rw [e1]; simp)
      rw [this] at h2; exact absurd h2 (by decide)
  · subst e2
    exact h s1 u e1

/-- No match of `p+ r` when the first character of a match of `r` is neither in the run nor after it. -/
theorem NoMatch.plusThenCls {p q : Char → Bool} {r : Re} {w rest : Str} (hr : ∀ x t, rest = x :: t → p x = false)
    (hw : ∀ x ∈ w, q x = false) (hq : ∀ x t, rest = x :: t → q x = false) (h : ∀ s, (∀ x t, s = x :: t → q x = false) → NoMatch r s) :
    NoMatch (.seq (.plus (.cls p)) r) (w ++ rest) := by
  refine NoMatch.plusThen hr (fun w1 w2 e => h _ ?_)
  intro x t e'
  cases w2 with
  | nil => exact hq x t (by simpa using e')
  | cons y w2 =>
    rw [List.cons_append, List.cons.injEq] at e'
    exact hw x (by rw [e, ← e'.1]; simp)

end Verif
