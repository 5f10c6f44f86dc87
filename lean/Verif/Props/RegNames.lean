import Verif.Props.TextOut
/-!
# Property C144: the accounts named by the register
-/
namespace Verif

/-- A non-empty name that does not start with a colon. -/
def PlainName (n : Str) : Prop := n ≠ [] ∧ n.head? ≠ some ':'

/-- `n` is `a` or lies below it. -/
def AtOrBelow (a n : Str) : Prop := n = a ∨ ∃ rest, n = a ++ ':' :: rest

/-- The full statement: on the register of `acc`, printed without shortening, different accounts have different names. -/
def C144_Statement : Prop :=
  ∀ (acc m n : Str), PlainName acc → PlainName m → PlainName n → trimPrefix m acc = trimPrefix n acc → m = n

/-- **C144** does not hold: on the register of `Cash`, both `CashBack` and `Back` are shown as `Back`. -/
theorem C144_names_violated : ¬ C144_Statement := by
  intro h
  have := h (str "Cash") (str "CashBack") (str "Back") (by unfold PlainName; decide) (by unfold PlainName; decide) (by unfold PlainName; decide) (by decide)
  exact absurd this (by decide)

theorem trimPrefix_append (a s : Str) : trimPrefix (a ++ s) a = s := by
  have h : hasPrefix (a ++ s) a = true := by unfold hasPrefix; simp
  unfold trimPrefix
  rw [if_pos h, List.drop_left]

theorem trimPrefix_other {n a : Str} (h : ¬ ∃ s, n = a ++ s) : trimPrefix n a = n := by
  unfold trimPrefix
  rw [if_neg]
  intro hp
  refine h ⟨n.drop a.length, ?_⟩
  unfold hasPrefix at hp
  obtain ⟨t, rfl⟩ := List.isPrefixOf_iff_prefix.mp hp
  simp

/-- **C144**, what holds: among the account itself, the accounts below it and the accounts whose names do not start with its name. -/
theorem C144_names_partial (acc m n : Str) (hm : PlainName m) (hn : PlainName n)
    (hm' : AtOrBelow acc m ∨ ¬ ∃ s, m = acc ++ s) (hn' : AtOrBelow acc n ∨ ¬ ∃ s, n = acc ++ s)
    (h : trimPrefix m acc = trimPrefix n acc) : m = n := by
  have key : ∀ n, PlainName n → AtOrBelow acc n ∨ (¬ ∃ s, n = acc ++ s) →
      (trimPrefix n acc = [] ∧ n = acc) ∨ ((trimPrefix n acc).head? = some ':' ∧ n = acc ++ trimPrefix n acc) ∨
      (PlainName (trimPrefix n acc) ∧ trimPrefix n acc = n) := by
    intro n hn hn'
    rcases hn' with (rfl | ⟨rest, rfl⟩) | h
    · left
      have := trimPrefix_append n []
      rw [List.append_nil] at this
      exact ⟨this, rfl⟩
    · right; left
      rw [trimPrefix_append]
      exact ⟨rfl, rfl⟩
    · right; right
      rw [trimPrefix_other h]
      exact ⟨hn, rfl⟩
  rcases key m hm hm' with ⟨m1, m2⟩ | ⟨m1, m2⟩ | ⟨m1, m2⟩ <;> rcases key n hn hn' with ⟨n1, n2⟩ | ⟨n1, n2⟩ | ⟨n1, n2⟩
  · rw [m2, n2]
  · rw [← h, m1] at n1; simp at n1
  · rw [← h, m1] at n1; exact absurd rfl n1.1
  · rw [h, n1] at m1; simp at m1
  · rw [m2, n2, h]
  · rw [h] at m1; exact absurd m1 n1.2
  · rw [h, n1] at m1; exact absurd rfl m1.1
  · rw [← h] at n1; exact absurd n1 m1.2
  · rw [← m2, ← n2, h]

/-- On the register of `Cash`: `Cash:Wallet` is shown as `:Wallet`, `Back` as `Back`. -/
example : PlainName (str "Cash:Wallet") ∧ PlainName (str "Back") ∧ AtOrBelow (str "Cash") (str "Cash:Wallet") ∧ (¬ ∃ s, str "Back" = str "Cash" ++ s) ∧
    trimPrefix (str "Cash:Wallet") (str "Cash") = str ":Wallet" ∧ trimPrefix (str "Back") (str "Cash") = str "Back" := by
  refine ⟨by unfold PlainName; decide, by unfold PlainName; decide, .inr ⟨str "Wallet", by decide⟩, ?_, by decide, by decide⟩
  rintro ⟨s, hs⟩
  have := congrArg List.head? hs
  simp [str] at this

end Verif
