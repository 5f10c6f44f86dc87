import Verif.Model.Load
import Verif.Props.Parsing
/-
Lemmas about loading: where an item ends does not depend on what was loaded before, what an item means does not depend on what follows.
-/
namespace Verif

/-- Does `l` continue the item whose first line is `line`? (Tests, which end with a line of their own, apart.) -/
def continuesItem (line l : Str) : Bool :=
  if startsWith (str "include") line then false
  else if startsWith (str "account") line then !endsBody l
  else if startsWith (str "commodity ") line then !endsBody l
  else if startsWith (str "test ") line then false
  else if startsWith (str "P ") line then false
  else if startsDigit line then (postingRe.matches l).isSome
  else false

/-- Is `line` the first line of a test? -/
def startsTest (line : Str) : Bool :=
  !startsWith (str "include") line && !startsWith (str "account") line && !startsWith (str "commodity ") line && startsWith (str "test ") line

theorem map_bind {α β γ : Type} (x : Except Fault α) (f : α → Except Fault β) (g : β → Except Fault γ) : (x.bind f).bind g = x.bind (fun a => (f a).bind g) := by
  cases x <;> rfl

theorem bind_congr' {α β : Type} (x : Except Fault α) {f g : α → Except Fault β} (h : ∀ a, f a = g a) : x.bind f = x.bind g := by
  cases x with
  | error e => rfl
  | ok a => exact h a

theorem postingLoop_append (env : PEnv) (blk T : List Str) (hb : ∀ l ∈ blk, (postingRe.matches l).isSome) (hT : ∀ l ∈ T.head?, (postingRe.matches l).isSome = false)
    (tn : List Str) (ps : List PPost) (pending : List Str) :
    postingLoop env tn ps pending (blk ++ T) = (postingLoop env tn ps pending blk).bind fun r => .ok (r.1, T) := by
  induction blk generalizing tn ps pending with
  | nil =>
    rw [List.nil_append]
    cases T with
    | nil => unfold postingLoop; rw [map_bind]; rfl
    | cons l T =>
      have h := hT l (by simp)
      have hn : postingRe.matches l = none := by
        cases h' : postingRe.matches l with
        | none => rfl
        | some c => rw [h'] at h; cases h
      conv_lhs => rw [postingLoop, hn]
      rw [postingLoop, map_bind]; rfl
  | cons l blk ih =>
    have hl := hb l (by simp)
    have ih := ih (fun x hx => hb x (by simp [hx]))
    rw [List.cons_append, postingLoop, postingLoop]
    cases hm : postingRe.matches l with
    | none => rw [hm] at hl; cases hl
    | some c =>
      simp only
      split
      · exact ih _ _ _
      · rw [map_bind]
        refine bind_congr' _ fun q => ?_
        rw [map_bind]
        exact bind_congr' _ fun b => ih _ _ _

theorem accountBody_append (env : PEnv) (blk T : List Str) (hb : ∀ l ∈ blk, endsBody l = false) (hT : ∀ l ∈ T.head?, endsBody l = true) (a : PAcct) :
    accountBody env a (blk ++ T) = (accountBody env a blk).bind fun r => .ok (r.1, T) := by
  induction blk generalizing a with
  | nil =>
    cases T with
    | nil => rfl
    | cons l T =>
      conv_lhs => rw [List.nil_append, accountBody, if_pos (hT l (by simp))]
      rfl
  | cons l blk ih =>
    have ih := ih (fun x hx => hb x (by simp [hx]))
    have hl : ¬ (endsBody l = true) := by rw [hb l (by simp)]; decide
    rw [List.cons_append, accountBody, accountBody, if_neg hl, if_neg hl]
    cases hm : accountBodyRe.matches l with
    | none => rfl
    | some c =>
      simp only
      rw [map_bind]
      exact bind_congr' _ fun b => ih _

theorem commodityBody_append (blk T : List Str) (hb : ∀ l ∈ blk, endsBody l = false) (hT : ∀ l ∈ T.head?, endsBody l = true) (x : PCom) (d : Bool) :
    commodityBody x d (blk ++ T) = (commodityBody x d blk).bind fun r => .ok (r.1, T) := by
  induction blk generalizing x d with
  | nil =>
    cases T with
    | nil => rfl
    | cons l T =>
      conv_lhs => rw [List.nil_append, commodityBody, if_pos (hT l (by simp))]
      rfl
  | cons l blk ih =>
    have ih := ih (fun x hx => hb x (by simp [hx]))
    have hl : ¬ (endsBody l = true) := by rw [hb l (by simp)]; decide
    rw [List.cons_append, commodityBody, commodityBody, if_neg hl, if_neg hl]
    cases hm : commodityBodyRe.matches l with
    | none => rfl
    | some c =>
      simp only
      rw [map_bind]
      exact bind_congr' _ fun b => ih _ _

/-- What an item is does not depend on the lines after it. -/
theorem parseItem_append (env : PEnv) (line : Str) (blk T : List Str) (hnt : startsTest line = false) (hb : ∀ l ∈ blk, continuesItem line l = true)
    (hT : ∀ l ∈ T.head?, continuesItem line l = false) :
    parseItem env line (blk ++ T) = (parseItem env line blk).bind fun r => .ok (r.1, T) := by
  have hnil : (∀ l, continuesItem line l = false) → blk = [] := by
    intro h
    cases blk with
    | nil => rfl
    | cons l _ => have := hb l (by simp); rw [h l] at this; cases this
  unfold parseItem
  unfold continuesItem at hb hT hnil
  unfold startsTest at hnt
  by_cases h1 : startsWith (str "include") line = true
  · rw [if_pos h1, if_pos h1]
    rw [hnil (fun l => by rw [if_pos h1]), List.nil_append]
    unfold parseInclude
    cases includeRe.matches line <;> rfl
  simp only [Bool.not_eq_true] at h1
  by_cases h2 : startsWith (str "account") line = true
  · simp only [h1, h2] at hb hT ⊢
    simp only [Bool.false_eq_true, if_false, if_true, Bool.not_eq_true', Bool.not_eq_false'] at hb hT ⊢
    unfold parseAccount
    rw [accountBody_append env blk T hb hT, map_bind, map_bind]
    exact bind_congr' _ fun _ => rfl
  simp only [Bool.not_eq_true] at h2
  by_cases h3 : startsWith (str "commodity ") line = true
  · simp only [h1, h2, h3] at hb hT ⊢
    simp only [Bool.false_eq_true, if_false, if_true, Bool.not_eq_true', Bool.not_eq_false'] at hb hT ⊢
    unfold parseCommodity
    rw [commodityBody_append blk T hb hT, map_bind, map_bind]
    exact bind_congr' _ fun _ => rfl
  simp only [Bool.not_eq_true] at h3
  have h4 : startsWith (str "test ") line = false := by
    simpa [h1, h2, h3] using hnt
  simp only [h1, h2, h3, h4] at hb hT hnil ⊢
  simp only [Bool.false_eq_true, if_false, if_true] at hb hT hnil ⊢
  by_cases h5 : startsWith (str "P ") line = true
  · rw [hnil (fun l => by rw [if_pos h5]), List.nil_append, if_pos h5, if_pos h5]
    unfold parsePrice
    cases priceRe.matches line with
    | none => rfl
    | some c => simp only [map_bind]; rfl
  simp only [h5] at hb hT hnil ⊢
  simp only [Bool.false_eq_true, if_false, if_true] at hb hT hnil ⊢
  by_cases h6 : startsDigit line = true
  · simp only [h6] at hb hT ⊢
    simp only [if_true] at hb hT ⊢
    unfold parseTransaction
    cases transactionRe.matches line with
    | none => rfl
    | some c =>
      simp only [map_bind]
      refine bind_congr' _ fun t => ?_
      rw [postingLoop_append env blk T hb hT, map_bind]
      rfl
  · rw [if_neg h6, if_neg h6]; rfl

theorem testLoop_append (acc : Str) (blk : List Str) (e : Str) (T : List Str) (hb : ∀ l ∈ blk, trimSpace l ≠ str "end test")
    (he : trimSpace e = str "end test") : testLoop acc (blk ++ e :: T) = ((testLoop acc (blk ++ [e])).1, T) := by
  induction blk generalizing acc with
  | nil => rw [List.nil_append, List.nil_append, testLoop, testLoop, if_pos he, if_pos he]
  | cons l blk ih =>
    have hl := hb l (by simp)
    rw [List.cons_append, List.cons_append, testLoop, testLoop, if_neg hl, if_neg hl]
    exact ih _ (fun x hx => hb x (by simp [hx]))

/-- What a test is does not depend on the lines after it. -/
theorem parseItem_test (env : PEnv) (line : Str) (blk : List Str) (e : Str) (T : List Str) (ht : startsTest line = true)
    (hb : ∀ l ∈ blk, trimSpace l ≠ str "end test") (he : trimSpace e = str "end test") :
    parseItem env line (blk ++ e :: T) = (parseItem env line (blk ++ [e])).bind fun r => .ok (r.1, T) := by
  unfold startsTest at ht
  simp only [Bool.and_eq_true, Bool.not_eq_true'] at ht
  obtain ⟨⟨⟨h1, h2⟩, h3⟩, h4⟩ := ht
  unfold parseItem
  simp only [h1, h2, h3, h4]
  simp only [Bool.false_eq_true, if_false, if_true]
  unfold parseTest
  cases testRe.matches line with
  | none => rfl
  | some c =>
    simp only
    rw [testLoop_append [] blk e T hb he]; rfl

end Verif
