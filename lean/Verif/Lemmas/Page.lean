import Verif.Model.Page
import Verif.Lemmas.Json
import Verif.Lemmas.Sort
import Verif.Lemmas.Ledger
import Verif.Props.WebAmount
import Verif.Props.Date
/-!
# Fields of the page's data
-/
namespace Verif

theorem optField_cases (k s : Str) : (s = [] ∧ optField k s = []) ∨ (s ≠ [] ∧ optField k s = [(k, .str s)]) := by
  unfold optField
  by_cases h : s = []
  · exact Or.inl ⟨h, if_pos h⟩
  · exact Or.inr ⟨h, if_neg h⟩

theorem commodityJson_get (c : OutCom) : (commodityJson c).strOf (str "id") = some c.id ∧ (commodityJson c).get (str "decimals") = some (.num c.decimals) := by
  unfold commodityJson
  rcases optField_cases (str "code") c.code with ⟨_, h1⟩ | ⟨_, h1⟩ <;> rcases optField_cases (str "location") c.location with ⟨_, h2⟩ | ⟨_, h2⟩ <;>
    rw [h1, h2] <;> exact ⟨rfl, rfl⟩

theorem accountJson_get (a : OutAcct) : (accountJson a).strOf (str "name") = some a.name ∧ (accountJson a).strOf (str "fullName") = some a.fullName ∧
    (accountJson a).strOf (str "commodity") = some a.commodityId ∧ (accountJson a).strOf (str "parent") = a.parent ∧
    (accountJson a).strOf (str "closed") = a.closed.map formatDate := by
  unfold accountJson
  rcases optField_cases (str "code") a.code with ⟨_, h1⟩ | ⟨_, h1⟩ <;> rcases optField_cases (str "location") a.location with ⟨_, h2⟩ | ⟨_, h2⟩ <;>
    rw [h1, h2] <;> cases a.closed <;> cases a.parent <;> exact ⟨rfl, rfl, rfl, rfl, rfl⟩

theorem strs_back (l : List Str) : (l.map JVal.str).filterMap (fun x => match x with | .str s => some s | _ => none) = l := by
  induction l with
  | nil => rfl
  | cons a l ih => simp [ih]

theorem tags_back (l : List (Str × Str)) :
    (l.map fun e => (e.1, JVal.str e.2)).filterMap (fun x => match x.2 with | .str s => some (x.1, s) | _ => none) = l := by
  induction l with
  | nil => rfl
  | cons a l ih => simp [ih]

/-- The tags as the page has them: by increasing key. -/
def sortedTags (l : List (Str × Str)) : List (Str × Str) := stableSort (fun a b : Str × Str => strLt a.1 b.1) l

theorem postingJson_get (p : OutPost) (v : JVal) (h : postingJson p = .ok v) : ∃ q,
    amountJson p.quantity = .ok q ∧ v.strOf (str "account") = some p.account ∧ v.strOf (str "quantity") = some q ∧
    v.strsOf (str "notes") = p.notes ∧ v.tagsOf (str "tags") = sortedTags (p.tags.getD []) ∧
    (∀ b, p.balance = some b → ∃ s, amountJson b = .ok s ∧ v.strOf (str "balance") = some s ∧ v.get (str "balance_asserted") = some (.bool p.asserted)) ∧
    (p.balance = none → v.strOf (str "balance") = none) := by
  unfold postingJson at h
  obtain ⟨q, h1, h⟩ := bind_ok.mp h
  obtain ⟨bal, h2, h⟩ := bind_ok.mp h
  injection h with h
  refine ⟨q, h1, ?_⟩
  have hn : (if p.notes = [] then [] else [(str "notes", strsJson p.notes)]) = [] ∧ p.notes = [] ∨
      (if p.notes = [] then [] else [(str "notes", strsJson p.notes)]) = [(str "notes", strsJson p.notes)] := by
    by_cases hp : p.notes = []
    · exact Or.inl ⟨if_pos hp, hp⟩
    · exact Or.inr (if_neg hp)
  cases hb : p.balance with
  | none =>
    rw [hb] at h2
    unfold balanceFields at h2
    injection h2 with h2
    subst h2
    rcases hn with ⟨hn, he⟩ | hn <;> rw [hn] at h <;> cases ht : p.tags <;> rw [ht] at h <;> subst h
    · exact ⟨rfl, rfl, he.symm, rfl, (fun b hb => by cases hb), fun _ => rfl⟩
    · exact ⟨rfl, rfl, he.symm, tags_back _, (fun b hb => by cases hb), fun _ => rfl⟩
    · exact ⟨rfl, rfl, strs_back _, rfl, (fun b hb => by cases hb), fun _ => rfl⟩
    · exact ⟨rfl, rfl, strs_back _, tags_back _, (fun b hb => by cases hb), fun _ => rfl⟩
  | some b =>
    rw [hb] at h2
    unfold balanceFields at h2
    obtain ⟨s, hs, h2⟩ := bind_ok.mp h2
    injection h2 with h2
    subst h2
    rcases hn with ⟨hn, he⟩ | hn <;> rw [hn] at h <;> cases ht : p.tags <;> rw [ht] at h <;> subst h
    · exact ⟨rfl, rfl, he.symm, rfl, by intro b' hb'; cases hb'; exact ⟨s, hs, rfl, rfl⟩, by intro hh; cases hh⟩
    · exact ⟨rfl, rfl, he.symm, tags_back _, by intro b' hb'; cases hb'; exact ⟨s, hs, rfl, rfl⟩, by intro hh; cases hh⟩
    · exact ⟨rfl, rfl, strs_back _, rfl, by intro b' hb'; cases hb'; exact ⟨s, hs, rfl, rfl⟩, by intro hh; cases hh⟩
    · exact ⟨rfl, rfl, strs_back _, tags_back _, by intro b' hb'; cases hb'; exact ⟨s, hs, rfl, rfl⟩, by intro hh; cases hh⟩

theorem txnJson_get (t : OutTxn) (v : JVal) (h : txnJson t = .ok v) : ∃ ps,
    jsonAll postingJson t.postings = .ok ps ∧ v.strOf (str "posted") = some (formatDate t.posted) ∧ v.strOf (str "description") = some t.description ∧
    postingValues v = .ok ps ∧ v.strsOf (str "notes") = t.notes ∧ (v.strOf (str "code")).getD [] = t.code ∧ (v.strOf (str "location")).getD [] = t.location := by
  unfold txnJson at h
  obtain ⟨ps, h1, h⟩ := bind_ok.mp h
  injection h with h
  refine ⟨ps, h1, ?_⟩
  have hn : (if t.notes = [] then [] else [(str "notes", strsJson t.notes)]) = [] ∧ t.notes = [] ∨
      (if t.notes = [] then [] else [(str "notes", strsJson t.notes)]) = [(str "notes", strsJson t.notes)] := by
    by_cases hp : t.notes = []
    · exact Or.inl ⟨if_pos hp, hp⟩
    · exact Or.inr (if_neg hp)
  have ht : (if t.tags = [] then [] else [(str "tags", tagsJson t.tags)]) = [] ∨
      (if t.tags = [] then [] else [(str "tags", tagsJson t.tags)]) = [(str "tags", tagsJson t.tags)] := by
    by_cases hp : t.tags = []
    · exact Or.inl (if_pos hp)
    · exact Or.inr (if_neg hp)
  rcases optField_cases (str "code") t.code with ⟨c1, h2⟩ | ⟨c1, h2⟩ <;> rcases optField_cases (str "location") t.location with ⟨c2, h3⟩ | ⟨c2, h3⟩ <;>
    rcases hn with ⟨hn, he⟩ | hn <;> rcases ht with ht | ht <;> rw [h2, h3, hn, ht] at h <;> subst h
  all_goals refine ⟨rfl, rfl, rfl, ?_, ?_, ?_⟩
  all_goals first
    | exact strs_back _
    | exact he.symm
    | exact c1.symm
    | exact c2.symm
    | rfl

theorem priceJson_get (p : OutPrice) (v : JVal) (h : priceJson p = .ok v) : ∃ s,
    amountJson p.value = .ok s ∧ v.strOf (str "commodity") = some p.commodityId ∧ v.strOf (str "value") = some s ∧
    v.strOf (str "time") = some (formatDate p.time) := by
  unfold priceJson at h
  obtain ⟨s, h1, h⟩ := bind_ok.mp h
  injection h with h
  refine ⟨s, h1, ?_⟩
  rcases optField_cases (str "location") p.location with ⟨_, h2⟩ | ⟨_, h2⟩ <;> rw [h2] at h <;> subst h <;> exact ⟨rfl, rfl, rfl⟩

theorem jsonAll_ok {α : Type} (f : α → Except Fault JVal) : ∀ (l : List α) (vs : List JVal), jsonAll f l = .ok vs ↔ List.Forall₂ (fun x v => f x = .ok v) l vs := by
  intro l
  induction l with
  | nil =>
    intro vs
    unfold jsonAll
    constructor
    · intro h; injection h with h; subst h; exact .nil
    · intro h; cases h; rfl
  | cons x l ih =>
    intro vs
    unfold jsonAll
    constructor
    · intro h
      obtain ⟨v, h1, h⟩ := bind_ok.mp h
      obtain ⟨ws, h2, h⟩ := bind_ok.mp h
      injection h with h; subst h
      exact .cons h1 ((ih ws).mp h2)
    · intro h
      cases h with
      | cons h1 h2 =>
        rw [h1]; simp only [Except.bind]
        rw [(ih _).mpr h2]

theorem foldE_cons {α β : Type} (f : β → α → Except Fault β) (b : β) (x : α) (l : List α) :
    foldE f b (x :: l) = (f b x).bind fun b => foldE f b l := rfl

theorem foldE_append {α β : Type} (f : β → α → Except Fault β) (l l' : List α) (b : β) :
    foldE f b (l ++ l') = (foldE f b l).bind fun b => foldE f b l' := by
  induction l generalizing b with
  | nil => rfl
  | cons x l ih =>
    rw [List.cons_append, foldE_cons, foldE_cons]
    cases f b x with
    | error e => rfl
    | ok c => exact ih c

/-- A loop that appends what each element is read as. -/
theorem foldE_push {α β : Type} (f : α → Except Fault β) (l : List α) (out : List β) (h : List.Forall₂ (fun x y => f x = .ok y) l out) :
    ∀ acc, foldE (fun b x => (f x).bind fun y => .ok (b ++ [y])) acc l = .ok (acc ++ out) := by
  induction h with
  | nil => intro acc; simp [foldE]
  | cons h1 _ ih =>
    intro acc
    unfold foldE
    rw [h1]
    show foldE _ (acc ++ [_]) _ = _
    rw [ih]; simp

/-! ## Dates -/

theorem splitOn_date (y m d : Str) (hy : y.all isDigit = true) (hm : m.all isDigit = true) (hd : d.all isDigit = true) :
    splitOn '/' (y ++ '/' :: (m ++ '/' :: d)) = [y, m, d] := by
  have ns : ∀ s : Str, s.all isDigit = true → '/' ∉ s := by
    intro s hs hc
    have := List.all_eq_true.mp hs _ hc
    revert this; decide
  rw [splitOn_append_sep '/' y _ (ns y hy), splitOn_append_sep '/' m _ (ns m hm), splitOn_noSep '/' d (ns d hd)]

/-- A date of the years 100 to 9999 is read by the page as midnight of the same day. -/
theorem jsDate_format (n : Int) (h0 : 100 ≤ goYear n) (h1 : goYear n ≤ 9999) : jsDate (formatDate n) = some (86400 * n) := by
  obtain ⟨y, m, d, e, ⟨hy, hyl⟩, ⟨hm, hml⟩, ⟨hd, hdl⟩, vy, vm, vd⟩ := formatDate_digits n (by omega) h1
  have all : ∀ s : Str, Digits s → s.all isDigit = true := fun s hs => List.all_eq_true.mpr hs
  have ne : ∀ (s : Str) (k : Nat), s.length = k + 1 → s ≠ [] := by intro s k h e; rw [e] at h; cases h
  unfold jsDate
  rw [e, splitOn_date y m d (all y hy) (all m hm) (all d hd)]
  dsimp only
  rw [if_pos ⟨by rw [all y hy, all m hm, all d hd]; rfl, ne y 3 hyl, ne m 1 hml, ne d 1 hdl⟩, if_neg (by omega), if_neg (by omega), vy, vm, vd, goDate_parts]

end Verif
