import Verif.Model.Gnucash
import Verif.Props.Amount
import Verif.Props.Accounts
import Verif.Lemmas.Ledger
import Mathlib.Data.List.Perm.Subperm
import Mathlib.Algebra.Order.Field.Rat
import Mathlib.Tactic.FieldSimp
import Verif.Lemmas.RunsTo
import Verif.Lemmas.Groups
/-
C105, C106: accounts and amounts of a converted GnuCash book.
-/
namespace Verif

/-! ## C105: accounts -/

/-- The name an account gets: blanks are not allowed in names of coin accounts. -/
def cleanName (n : Str) : Str := if n = str "Root Account" then str "Root" else n.filter (fun c => decide (c ≠ ' '))

/-- The root of the tree of accounts. -/
def IsRootAcct (a : GAccount) : Prop := a.type = str "ROOT" ∨ a.parentGuid = []

instance (a : GAccount) : Decidable (IsRootAcct a) := by unfold IsRootAcct; infer_instance

/-- The names on the way from the top of the tree to an account, without the root. -/
inductive NamePath (as : List GAccount) : GAccount → List Str → Prop
  | root {a} : IsRootAcct a → NamePath as a [cleanName a.name]
  | top {a b} : ¬ IsRootAcct a → b ∈ as → b.guid = a.parentGuid → IsRootAcct b → NamePath as a [cleanName a.name]
  | child {a b l} : ¬ IsRootAcct a → b ∈ as → b.guid = a.parentGuid → ¬ IsRootAcct b → NamePath as b l → NamePath as a (l ++ [cleanName a.name])

/-- The accounts of a book: created from the elements, and named in some iteration order. -/
def GcNamed (env : GcEnv) (as : List GAccount) (f : NameOf) (m : ByName) : Prop :=
  ∃ cs order, as.mapM (accountFrom env) = .ok cs ∧ order.Perm cs ∧ nameAccounts cs order = .ok (f, m)

/-- Does not need a longer name than that of its own. -/
def gcTop (cs : List GcAcct) (a : GcAcct) : Bool :=
  gcIsRoot cs a || (match gcParent cs a with | none => true | some p => gcIsRoot cs p)

/-- The accounts on the way from the top. -/
inductive GChain (cs : List GcAcct) : GcAcct → List GcAcct → Prop
  | top {a} : gcTop cs a = true → GChain cs a [a]
  | child {a p l} : gcTop cs a = false → gcParent cs a = some p → GChain cs p l → GChain cs a (l ++ [a])

def pathName (l : List GcAcct) : Str := joinWith [':'] (l.map (·.name))

theorem GChain.ne {cs a l} (h : GChain cs a l) : l ≠ [] := by cases h <;> simp

theorem GChain.det {cs : List GcAcct} {a l} (h : GChain cs a l) : ∀ {l'}, GChain cs a l' → l = l' := by
  induction h with
  | top ht =>
    intro l' h'
    cases h' with
    | top => rfl
    | child hn => rw [ht] at hn; cases hn
  | child hn hp _ ih =>
    intro l' h'
    cases h' with
    | top ht => rw [ht] at hn; cases hn
    | child _ hp' hc' =>
      rw [hp] at hp'; cases hp'
      rw [ih hc']

theorem GChain.mem_chain {cs : List GcAcct} {a l} (h : GChain cs a l) : ∀ b ∈ l, ∃ l', GChain cs b l' ∧ l'.length ≤ l.length := by
  induction h with
  | @top a ht =>
    intro b hb
    simp only [List.mem_singleton] at hb
    subst hb
    exact ⟨_, .top ht, Nat.le_refl _⟩
  | @child a p l hn hp hc ih =>
    intro b hb
    rcases List.mem_append.mp hb with hb | hb
    · obtain ⟨l', h1, h2⟩ := ih b hb
      exact ⟨l', h1, by simp; omega⟩
    · simp only [List.mem_singleton] at hb
      subst hb
      exact ⟨_, .child hn hp hc, Nat.le_refl _⟩

theorem byGuid_mem {cs : List GcAcct} {g : Str} {a : GcAcct} (h : byGuid cs g = some a) : a ∈ cs ∧ a.guid = g := by
  have h1 := List.find?_some h
  exact ⟨List.mem_of_find?_eq_some h, by simpa using h1⟩

theorem gcParent_mem {cs : List GcAcct} {a p : GcAcct} (h : gcParent cs a = some p) : p ∈ cs := by
  unfold gcParent at h
  split at h
  · cases h
  · exact (byGuid_mem h).1

theorem GChain.mem {cs : List GcAcct} {a l} (h : GChain cs a l) (ha : a ∈ cs) : ∀ b ∈ l, b ∈ cs := by
  induction h with
  | top => intro b hb; simp only [List.mem_singleton] at hb; subst hb; exact ha
  | child _ hp _ ih =>
    intro b hb
    rcases List.mem_append.mp hb with hb | hb
    · exact ih (gcParent_mem hp) b hb
    · simp only [List.mem_singleton] at hb; subst hb; exact ha

theorem GChain.nodup {cs : List GcAcct} {a l} (h : GChain cs a l) : l.Nodup := by
  induction h with
  | top => simp
  | @child a p l hn hp hc ih =>
    rw [List.nodup_append]
    refine ⟨ih, by simp, ?_⟩
    intro x hx y hy he
    simp only [List.mem_singleton] at hy
    subst hy; subst he
    obtain ⟨l', h1, h2⟩ := hc.mem_chain _ hx
    have := GChain.det h1 (.child hn hp hc)
    rw [this] at h2
    simp at h2

theorem GChain.length_le {cs : List GcAcct} {a l} (h : GChain cs a l) (ha : a ∈ cs) : l.length ≤ cs.length :=
  (List.subperm_of_subset h.nodup (h.mem ha)).length_le

theorem byGuid_self {cs : List GcAcct} (hn : (cs.map (·.guid)).Nodup) {a : GcAcct} (ha : a ∈ cs) : byGuid cs a.guid = some a := by
  induction cs with
  | nil => cases ha
  | cons b cs ih =>
    rw [List.map_cons, List.nodup_cons] at hn
    unfold byGuid
    rw [List.find?_cons]
    by_cases hb : b.guid = a.guid
    · rw [decide_eq_true hb]
      rcases List.mem_cons.mp ha with rfl | ha
      · rfl
      · exact absurd (List.mem_map_of_mem (f := (·.guid)) ha) (by rw [← hb]; exact hn.1)
    · rw [decide_eq_false hb]
      rcases List.mem_cons.mp ha with rfl | ha
      · exact absurd rfl hb
      · exact ih hn.2 ha

theorem guid_inj {cs : List GcAcct} (hn : (cs.map (·.guid)).Nodup) {a b : GcAcct} (ha : a ∈ cs) (hb : b ∈ cs) (h : a.guid = b.guid) : a = b := by
  have h1 := byGuid_self hn ha
  have h2 := byGuid_self hn hb
  rw [h, h2] at h1
  exact (Option.some.inj h1).symm

theorem joinWith_snoc (sep a : Str) (l : List Str) (h : l ≠ []) : joinWith sep (l ++ [a]) = joinWith sep l ++ sep ++ a := by
  induction l with
  | nil => exact absurd rfl h
  | cons b l ih =>
    by_cases hl : l = []
    · subst hl; simp [joinWith]
    · rw [List.cons_append, joinWith_cons _ _ _ (by simp), joinWith_cons _ _ _ hl, ih hl]
      simp

theorem pathName_snoc {l : List GcAcct} (h : l ≠ []) (a : GcAcct) : pathName (l ++ [a]) = pathName l ++ [':'] ++ a.name := by
  unfold pathName
  rw [List.map_append, List.map_singleton, joinWith_snoc _ _ _ (by simpa using h)]

/-- The names computed so far are right. -/
def NamesOk (cs : List GcAcct) (f : NameOf) : Prop := ∀ g, f g ≠ [] → ∃ a ∈ cs, a.guid = g ∧ ∃ l, GChain cs a l ∧ f g = pathName l

theorem NamesOk.set {cs : List GcAcct} {f : NameOf} (h : NamesOk cs f) {a : GcAcct} (ha : a ∈ cs) {l} (hl : GChain cs a l) :
    NamesOk cs (f.set a.guid (pathName l)) := by
  intro g hg
  unfold NameOf.set at hg ⊢
  by_cases e : g = a.guid
  · rw [if_pos e] at hg ⊢
    exact ⟨a, ha, e.symm, l, hl, rfl⟩
  · rw [if_neg e] at hg ⊢
    exact h g hg

/-- Nothing is forgotten. -/
def Keeps (f f' : NameOf) : Prop := ∀ g, f g ≠ [] → f' g = f g

theorem gcTop_false {cs : List GcAcct} {a : GcAcct} (h : gcTop cs a = false) : gcIsRoot cs a = false ∧ ∃ p, gcParent cs a = some p ∧ gcIsRoot cs p = false := by
  unfold gcTop at h
  rw [Bool.or_eq_false_iff] at h
  refine ⟨h.1, ?_⟩
  cases hp : gcParent cs a with
  | none => rw [hp] at h; exact absurd h.2 (by simp)
  | some p => rw [hp] at h; exact ⟨p, rfl, h.2⟩

theorem buildFullName_spec {cs : List GcAcct} (hn : (cs.map (·.guid)).Nodup) : ∀ (n : Nat) (f : NameOf) (a : GcAcct) (l : List GcAcct), a ∈ cs → NamesOk cs f →
    GChain cs a l → l.length ≤ n → ∃ f', buildFullName cs n f a = .ok (pathName l, f') ∧ NamesOk cs f' ∧ f' a.guid = pathName l ∧ Keeps f f' := by
  intro n
  induction n with
  | zero =>
    intro f a l _ _ hl hle
    exact absurd (List.length_eq_zero_iff.mp (Nat.le_zero.mp hle)) hl.ne
  | succ n ih =>
    intro f a l ha hf hl hle
    rw [buildFullName]
    by_cases hg : f a.guid ≠ []
    · rw [if_pos hg]
      obtain ⟨b, hb, hbg, l', hl', he⟩ := hf _ hg
      have hba := guid_inj hn hb ha hbg
      subst hba
      have := hl.det hl'
      subst this
      exact ⟨f, by rw [he], hf, he, fun _ _ => rfl⟩
    · rw [if_neg hg]
      have hg' : f a.guid = [] := by simpa using hg
      have set_keeps : ∀ (f2 : NameOf) (s : Str), f2 a.guid = [] ∨ True → Keeps f f2 → Keeps f (f2.set a.guid s) := by
        intro f2 s _ hk g hne
        unfold NameOf.set
        by_cases e : g = a.guid
        · subst e; exact absurd hg' hne
        · rw [if_neg e]; exact hk g hne
      have self : ∀ (f2 : NameOf) (s : Str), (f2.set a.guid s) a.guid = s := by intro f2 s; simp [NameOf.set]
      cases hl with
      | top ht =>
        have res : ∃ f', (Except.ok (a.name, f.set a.guid a.name) : Except Fault (Str × NameOf)) = .ok (pathName [a], f') ∧ NamesOk cs f' ∧ f' a.guid = pathName [a] ∧ Keeps f f' :=
          ⟨_, rfl, hf.set ha (.top ht), self _ _, set_keeps f _ (.inr trivial) (fun _ _ => rfl)⟩
        by_cases hr : gcIsRoot cs a = true
        · rw [if_pos hr]; exact res
        · rw [if_neg hr]
          cases hp : gcParent cs a with
          | none => exact res
          | some p =>
            dsimp only
            have : gcIsRoot cs p = true := by
              unfold gcTop at ht
              rw [hp] at ht
              simpa [hr] using ht
            rw [if_pos this]
            exact res
      | @child _ p l hnt hp hc =>
        obtain ⟨hr, p', hp', hpr⟩ := gcTop_false hnt
        rw [hp] at hp'; cases hp'
        rw [if_neg (by rw [hr]; decide), hp]
        dsimp only
        rw [if_neg (by rw [hpr]; decide)]
        obtain ⟨f', e1, e2, _, e4⟩ := ih f p l (gcParent_mem hp) hf hc (by simp at hle; omega)
        rw [e1]
        simp only [Except.bind]
        rw [← pathName_snoc hc.ne]
        exact ⟨_, rfl, e2.set ha (.child hnt hp hc), self _ _, set_keeps f' _ (.inr trivial) e4⟩

/-- A name is computed only if there is a way from the top. -/
theorem buildFullName_chain {cs : List GcAcct} (hn : (cs.map (·.guid)).Nodup) : ∀ (n : Nat) (f : NameOf) (a : GcAcct) (r), a ∈ cs → NamesOk cs f →
    buildFullName cs n f a = .ok r → ∃ l, GChain cs a l := by
  intro n
  induction n with
  | zero => intro f a r _ _ h; cases h
  | succ n ih =>
    intro f a r ha hf h
    rw [buildFullName] at h
    by_cases hg : f a.guid ≠ []
    · obtain ⟨b, hb, hbg, l', hl', _⟩ := hf _ hg
      have hba := guid_inj hn hb ha hbg
      subst hba
      exact ⟨l', hl'⟩
    · rw [if_neg hg] at h
      by_cases ht : gcTop cs a = true
      · exact ⟨_, .top ht⟩
      · have hnt : gcTop cs a = false := by simpa using ht
        obtain ⟨hr, p, hp, hpr⟩ := gcTop_false hnt
        rw [if_neg (by rw [hr]; decide), hp] at h
        dsimp only at h
        rw [if_neg (by rw [hpr]; decide)] at h
        obtain ⟨r', h1, _⟩ := bind_ok.mp h
        obtain ⟨l, hl⟩ := ih f p r' (gcParent_mem hp) hf h1
        exact ⟨_, .child hnt hp hl⟩

theorem Keeps.right {cs : List GcAcct} (hn : (cs.map (·.guid)).Nodup) {f f' : NameOf} (hk : Keeps f f') (hf : NamesOk cs f') {a : GcAcct} (ha : a ∈ cs) {l}
    (hl : GChain cs a l) (h : f a.guid = pathName l) : f' a.guid = pathName l := by
  by_cases e : f a.guid = []
  · by_contra hne
    have hne' : f' a.guid ≠ [] := by rw [← h, e] at hne; exact hne
    obtain ⟨b, hb, hbg, l', hl', he⟩ := hf _ hne'
    have hba := guid_inj hn hb ha hbg
    subst hba
    rw [hl.det hl'] at hne
    exact hne he
  · rw [hk _ e, h]

theorem mem_putBy {α} (key : α → Str) (m : List α) (a b : α) : b ∈ putBy key m a → b = a ∨ b ∈ m := by
  induction m with
  | nil => intro h; simp [putBy] at h; exact .inl h
  | cons c m ih =>
    intro h
    rw [putBy] at h
    split at h
    · rcases List.mem_cons.mp h with h | h
      · exact .inl h
      · exact .inr (by simp [h])
    · rcases List.mem_cons.mp h with h | h
      · exact .inr (by simp [h])
      · exact (ih h).imp id (by intro h; simp [h])

theorem putBy_keys {α} (key : α → Str) (m : List α) (a : α) (k : Str) : k ∈ (putBy key m a).map key ↔ k = key a ∨ k ∈ m.map key := by
  induction m with
  | nil => simp [putBy]
  | cons c m ih =>
    rw [putBy]
    split
    · rename_i h
      simp only [List.map_cons, List.mem_cons, h]
      tauto
    · simp only [List.map_cons, List.mem_cons, ih]
      tauto

theorem putBy_nodup {α} (key : α → Str) (m : List α) (a : α) (h : (m.map key).Nodup) : ((putBy key m a).map key).Nodup := by
  induction m with
  | nil => simp [putBy]
  | cons c m ih =>
    rw [List.map_cons, List.nodup_cons] at h
    rw [putBy]
    split
    · rename_i e
      rw [List.map_cons, List.nodup_cons, ← e]
      exact h
    · rename_i e
      rw [List.map_cons, List.nodup_cons]
      refine ⟨?_, ih h.2⟩
      rw [putBy_keys]
      rintro (he | he)
      · exact e he
      · exact h.1 he

theorem putBy_new {α} (key : α → Str) (m : List α) (a : α) (h : key a ∉ m.map key) : putBy key m a = m ++ [a] := by
  induction m with
  | nil => rfl
  | cons c m ih =>
    rw [List.map_cons, List.mem_cons, not_or] at h
    rw [putBy, if_neg (fun e => h.1 e.symm), ih h.2]
    rfl

theorem nameAll_spec {cs : List GcAcct} (hn : (cs.map (·.guid)).Nodup) : ∀ (order : List GcAcct) (f : NameOf) (m : ByName), (∀ a ∈ order, a ∈ cs) → NamesOk cs f →
    (∀ a ∈ order, ∃ l, GChain cs a l) → (m.map (·.1)).Nodup →
    ∃ f' m', nameAll cs f m order = .ok (f', m') ∧ NamesOk cs f' ∧ Keeps f f' ∧ (∀ a ∈ order, ∀ l, GChain cs a l → f' a.guid = pathName l) ∧
      (m'.map (·.1)).Nodup ∧ (∀ k, k ∈ m'.map (·.1) ↔ k ∈ m.map (·.1) ∨ ∃ a ∈ order, ∃ l, GChain cs a l ∧ k = pathName l) ∧
      (∀ e ∈ m', e ∈ m ∨ (e.2 ∈ order ∧ ∃ l, GChain cs e.2 l ∧ e.1 = pathName l)) ∧
      ((m.map (·.1) ++ order.map (fun a => f' a.guid)).Nodup → m' = m ++ order.map (fun a => (f' a.guid, a))) := by
  intro order
  induction order with
  | nil =>
    intro f m _ hf _ hm
    exact ⟨f, m, rfl, hf, fun _ _ => rfl, by simp, hm, by simp, fun e he => .inl he, by simp⟩
  | cons a order ih =>
    intro f m hsub hf hch hm
    obtain ⟨l, hl⟩ := hch a (by simp)
    have ha := hsub a (by simp)
    obtain ⟨f1, e1, h1, h2, h3⟩ := buildFullName_spec hn (cs.length + 1) f a l ha hf hl (Nat.le_succ_of_le (hl.length_le ha))
    obtain ⟨f', m', g1, g2, g3, g4, g5, g6, g7, g8⟩ := ih f1 (putBy (·.1) m (pathName l, a)) (fun b hb => hsub b (by simp [hb])) h1
      (fun b hb => hch b (by simp [hb])) (putBy_nodup _ _ _ hm)
    have hfa : f' a.guid = pathName l := g3.right hn g2 ha hl h2
    refine ⟨f', m', ?_, g2, ?_, ?_, g5, ?_, ?_, ?_⟩
    · rw [nameAll, e1]; exact g1
    · intro g hg
      have := h3 g hg
      rw [g3 g (by rw [this]; exact hg), this]
    · intro b hb l' hl'
      rcases List.mem_cons.mp hb with rfl | hb
      · rw [hl'.det hl]; exact hfa
      · exact g4 b hb l' hl'
    · intro k
      rw [g6 k, putBy_keys]
      constructor
      · rintro ((h | h) | ⟨b, hb, l', hl', h⟩)
        · exact .inr ⟨a, by simp, l, hl, h⟩
        · exact .inl h
        · exact .inr ⟨b, by simp [hb], l', hl', h⟩
      · rintro (h | ⟨b, hb, l', hl', h⟩)
        · exact .inl (.inr h)
        · rcases List.mem_cons.mp hb with rfl | hb
          · rw [hl'.det hl] at h; exact .inl (.inl h)
          · exact .inr ⟨b, hb, l', hl', h⟩
    · intro e he
      rcases g7 e he with h | ⟨h, h'⟩
      · rcases mem_putBy _ _ _ _ h with rfl | h
        · exact .inr ⟨by simp, l, hl, rfl⟩
        · exact .inl h
      · exact .inr ⟨by simp [h], h'⟩
    · intro hnd
      rw [List.map_cons, hfa] at hnd ⊢
      have hnew : pathName l ∉ m.map (·.1) := by
        intro hk
        rw [List.nodup_append] at hnd
        exact hnd.2.2 _ hk _ (by simp) rfl
      have e := putBy_new (fun x : Str × GcAcct => x.1) m (pathName l, a) hnew
      rw [g8 (by rw [e]; simpa using hnd), e]
      simp

theorem accountFrom_fields {env : GcEnv} {a : GAccount} {c : GcAcct} (h : accountFrom env a = .ok c) :
    c.guid = a.guid ∧ c.name = cleanName a.name ∧ c.type = a.type ∧ c.parent = a.parentGuid ∧ a.guid ≠ [] := by
  unfold accountFrom at h
  split at h
  · cases h
  · rename_i hg
    obtain ⟨com, _, h⟩ := bind_ok.mp h
    obtain ⟨ids, _, h⟩ := bind_ok.mp h
    cases h
    exact ⟨rfl, rfl, rfl, rfl, hg⟩

theorem guids_map {env : GcEnv} {as : List GAccount} {cs : List GcAcct} (h : as.mapM (accountFrom env) = .ok cs) : cs.map (·.guid) = as.map (·.guid) := by
  have hf := (mapM_ok _ _ _).mp h
  clear h
  induction hf with
  | nil => rfl
  | cons h _ ih => rw [List.map_cons, List.map_cons, ih, (accountFrom_fields h).1]

theorem linked_iff {cs : List GcAcct} : linked cs = true ↔ ∀ a ∈ cs, a.parent ≠ [] → ∃ p, byGuid cs a.parent = some p := by
  unfold linked
  rw [List.all_eq_true]
  constructor
  · intro h a ha hp
    have := h a ha
    simp only [hp, decide_false, Bool.false_or] at this
    exact Option.isSome_iff_exists.mp this
  · intro h a ha
    by_cases hp : a.parent = []
    · simp [hp]
    · obtain ⟨p, hp'⟩ := h a ha hp
      simp [hp']

theorem root_iff {env : GcEnv} {cs : List GcAcct} (hl : linked cs = true) {a : GAccount} {c : GcAcct} (hc : c ∈ cs) (h : accountFrom env a = .ok c) :
    gcIsRoot cs c = true ↔ IsRootAcct a := by
  obtain ⟨_, _, ht, hp, _⟩ := accountFrom_fields h
  unfold gcIsRoot IsRootAcct gcParent
  rw [Bool.or_eq_true, decide_eq_true_iff, ht, hp]
  refine or_congr Iff.rfl ?_
  by_cases e : a.parentGuid = []
  · simp [e]
  · obtain ⟨p, h'⟩ := linked_iff.mp hl c hc (by rw [hp]; exact e)
    rw [hp] at h'
    simp [e, h']

theorem chain_path {env : GcEnv} {as : List GAccount} {cs : List GcAcct} (hm : as.mapM (accountFrom env) = .ok cs) (hk : linked cs = true)
    {c : GcAcct} {l} (hl : GChain cs c l) : ∀ a, a ∈ as → c ∈ cs → accountFrom env a = .ok c → NamePath as a (l.map (·.name)) := by
  have hf := (mapM_ok _ _ _).mp hm
  induction hl with
  | @top c ht =>
    intro a ha hc hr
    have hname : [c].map (·.name) = [cleanName a.name] := by simp [(accountFrom_fields hr).2.1]
    rw [hname]
    by_cases hroot : IsRootAcct a
    · exact .root hroot
    · have hcr : gcIsRoot cs c = false := by
        rw [← Bool.not_eq_true]; exact fun e => hroot ((root_iff hk hc hr).mp e)
      unfold gcTop at ht
      rw [hcr, Bool.false_or] at ht
      cases hp : gcParent cs c with
      | none =>
        unfold gcIsRoot at hcr
        rw [hp] at hcr
        simp at hcr
      | some p =>
        rw [hp] at ht
        have hpm := gcParent_mem hp
        obtain ⟨b, hb, hbr⟩ := forall2_mem_right hf p hpm
        unfold gcParent at hp
        split at hp
        · cases hp
        · have := (byGuid_mem hp).2
          refine .top hroot hb ?_ ((root_iff hk hpm hbr).mp ht)
          rw [← (accountFrom_fields hbr).1, this, (accountFrom_fields hr).2.2.2.1]
  | @child c p l hnt hp hcp ih =>
    intro a ha hc hr
    obtain ⟨hr1, p', hp', hpr⟩ := gcTop_false hnt
    rw [hp] at hp'; cases hp'
    have hpm := gcParent_mem hp
    obtain ⟨b, hb, hbr⟩ := forall2_mem_right hf p hpm
    rw [List.map_append, List.map_singleton, (accountFrom_fields hr).2.1]
    refine .child ?_ hb ?_ ?_ (ih b hb hpm hbr)
    · intro e
      rw [(root_iff hk hc hr).mpr e] at hr1; cases hr1
    · unfold gcParent at hp
      split at hp
      · cases hp
      · have := (byGuid_mem hp).2
        rw [← (accountFrom_fields hbr).1, this, (accountFrom_fields hr).2.2.2.1]
    · intro e
      rw [(root_iff hk hpm hbr).mpr e] at hpr; cases hpr

theorem path_chain {env : GcEnv} {as : List GAccount} {cs : List GcAcct} (hm : as.mapM (accountFrom env) = .ok cs) (hn : (as.map (·.guid)).Nodup)
    (hk : linked cs = true) {a : GAccount} {l} (hl : NamePath as a l) : ∀ c, c ∈ cs → accountFrom env a = .ok c → ∃ l, GChain cs c l := by
  have hf := (mapM_ok _ _ _).mp hm
  have hn' : (cs.map (·.guid)).Nodup := by rw [guids_map hm]; exact hn
  have par : ∀ (a b : GAccount) (c : GcAcct), ¬ IsRootAcct a → b ∈ as → b.guid = a.parentGuid → c ∈ cs → accountFrom env a = .ok c →
      ∃ p, gcParent cs c = some p ∧ accountFrom env b = .ok p ∧ p ∈ cs := by
    intro a b c hr hb hg hc har
    obtain ⟨p, hp, hpr⟩ := forall2_mem_left hf b hb
    refine ⟨p, ?_, hpr, hp⟩
    unfold gcParent
    have e : c.parent = p.guid := by rw [(accountFrom_fields har).2.2.2.1, ← hg, (accountFrom_fields hpr).1]
    rw [if_neg ?_, e, byGuid_self hn' hp]
    rw [(accountFrom_fields har).2.2.2.1]
    exact fun e => hr (.inr e)
  induction hl with
  | root h =>
    intro c hc hr
    exact ⟨_, .top (by unfold gcTop; rw [(root_iff hk hc hr).mpr h]; rfl)⟩
  | @top a b h hb hg hbr =>
    intro c hc hr
    obtain ⟨p, hp, hpr, hpm⟩ := par a b c h hb hg hc hr
    exact ⟨_, .top (by unfold gcTop; rw [hp]; simp [(root_iff hk hpm hpr).mpr hbr])⟩
  | @child a b l h hb hg hbr _ ih =>
    intro c hc hr
    obtain ⟨p, hp, hpr, hpm⟩ := par a b c h hb hg hc hr
    obtain ⟨l, hl⟩ := ih p hpm hpr
    refine ⟨_, .child ?_ hp hl⟩
    unfold gcTop
    rw [hp, Bool.or_eq_false_iff]
    exact ⟨by rw [← Bool.not_eq_true]; exact fun e => h ((root_iff hk hc hr).mp e), by
      rw [← Bool.not_eq_true]; exact fun e => hbr ((root_iff hk hpm hpr).mp e)⟩

theorem nameAll_chain {cs : List GcAcct} (hn : (cs.map (·.guid)).Nodup) : ∀ (order : List GcAcct) (f : NameOf) (m : ByName) (r), (∀ a ∈ order, a ∈ cs) →
    NamesOk cs f → nameAll cs f m order = .ok r → ∀ a ∈ order, ∃ l, GChain cs a l := by
  intro order
  induction order with
  | nil => intro f m r _ _ _ a ha; cases ha
  | cons b order ih =>
    intro f m r hs hf h a ha
    rw [nameAll] at h
    obtain ⟨r1, h1, h2⟩ := bind_ok.mp h
    obtain ⟨l, hl⟩ := buildFullName_chain hn _ _ _ _ (hs b (by simp)) hf h1
    rcases List.mem_cons.mp ha with rfl | ha
    · exact ⟨l, hl⟩
    · obtain ⟨f', e, hf', _⟩ := buildFullName_spec hn (cs.length + 1) f b l (hs b (by simp)) hf hl (Nat.le_succ_of_le (hl.length_le (hs b (by simp))))
      rw [h1] at e
      cases e
      exact ih _ _ r (fun a ha => hs a (by simp [ha])) hf' h2 a ha

theorem namesOk_empty (cs : List GcAcct) : NamesOk cs (fun _ => []) := fun _ h => absurd rfl h

/-- Everything about a named book, for all iteration orders. -/
theorem named_spec {env : GcEnv} {as : List GAccount} {f : NameOf} {m : ByName} (hn : (as.map (·.guid)).Nodup) (h : GcNamed env as f m) :
    ∃ cs order : List GcAcct, as.mapM (accountFrom env) = .ok cs ∧ order.Perm cs ∧ linked cs = true ∧ (cs.map (·.guid)).Nodup ∧
      (∀ a ∈ cs, ∃ l, GChain cs a l ∧ f a.guid = pathName l) ∧ (m.map (·.1)).Nodup ∧ (∀ k, k ∈ m.map (·.1) ↔ ∃ a ∈ cs, k = f a.guid) ∧
      (∀ e ∈ m, e.2 ∈ cs ∧ e.1 = f e.2.guid) ∧ ((cs.map (fun a => f a.guid)).Nodup → m = order.map (fun a => (f a.guid, a))) := by
  obtain ⟨cs, order, hm, ho, hr⟩ := h
  have hn' : (cs.map (·.guid)).Nodup := by rw [guids_map hm]; exact hn
  unfold nameAccounts at hr
  split at hr
  · rename_i hk
    have hsub : ∀ a ∈ order, a ∈ cs := fun a ha => ho.mem_iff.mp ha
    have hch := nameAll_chain hn' order _ _ _ hsub (namesOk_empty cs) hr
    obtain ⟨f', m', g1, g2, g3, g4, g5, g6, g7, g8⟩ := nameAll_spec hn' order (fun _ => []) [] hsub (namesOk_empty cs) hch (by simp)
    rw [hr] at g1
    cases g1
    refine ⟨cs, order, hm, ho, hk, hn', ?_, g5, ?_, ?_, ?_⟩
    · intro a ha
      obtain ⟨l, hl⟩ := hch a (ho.mem_iff.mpr ha)
      exact ⟨l, hl, g4 a (ho.mem_iff.mpr ha) l hl⟩
    · intro k
      rw [g6 k]
      constructor
      · rintro (h | ⟨a, ha, l, hl, h⟩)
        · cases h
        · exact ⟨a, hsub a ha, by rw [g4 a ha l hl]; exact h⟩
      · rintro ⟨a, ha, h⟩
        obtain ⟨l, hl⟩ := hch a (ho.mem_iff.mpr ha)
        exact .inr ⟨a, ho.mem_iff.mpr ha, l, hl, by rw [h]; exact g4 a (ho.mem_iff.mpr ha) l hl⟩
    · intro e he
      rcases g7 e he with h | ⟨h, l, hl, h'⟩
      · cases h
      · exact ⟨hsub _ h, by rw [h', g4 _ h l hl]⟩
    · intro hd
      have := g8 (by simpa using ((ho.map (fun a => f a.guid)).nodup_iff.mpr hd))
      simpa using this
  · cases hr

/-- **C105** Whatever the iteration orders of the maps, the full name of every account is the path of the names from the top of the
tree, with blanks removed, and exactly these names are written, each once, with an account of that name. -/
theorem C105_full_names (env : GcEnv) (as : List GAccount) (f : NameOf) (m : ByName) (hn : (as.map (·.guid)).Nodup) (h : GcNamed env as f m) :
    (∀ a ∈ as, ∃ p, NamePath as a p ∧ f a.guid = joinWith [':'] p) ∧
    (m.map (·.1)).Nodup ∧ (∀ k, k ∈ m.map (·.1) ↔ ∃ a ∈ as, k = f a.guid) ∧
    (∀ e ∈ m, ∃ a ∈ as, accountFrom env a = .ok e.2 ∧ e.1 = f a.guid) := by
  obtain ⟨cs, order, hm, ho, hk, hn', h1, h2, h3, h4, _⟩ := named_spec hn h
  have hf := (mapM_ok _ _ _).mp hm
  refine ⟨?_, h2, ?_, ?_⟩
  · intro a ha
    obtain ⟨c, hc, hr⟩ := forall2_mem_left hf a ha
    obtain ⟨l, hl, e⟩ := h1 c hc
    refine ⟨_, chain_path hm hk hl a ha hc hr, ?_⟩
    rw [← (accountFrom_fields hr).1, e]
    rfl
  · intro k
    rw [h3 k]
    constructor
    · rintro ⟨c, hc, e⟩
      obtain ⟨a, ha, hr⟩ := forall2_mem_right hf c hc
      exact ⟨a, ha, by rw [e, (accountFrom_fields hr).1]⟩
    · rintro ⟨a, ha, e⟩
      obtain ⟨c, hc, hr⟩ := forall2_mem_left hf a ha
      exact ⟨c, hc, by rw [e, (accountFrom_fields hr).1]⟩
  · intro e he
    obtain ⟨hc, e1⟩ := h4 e he
    obtain ⟨a, ha, hr⟩ := forall2_mem_right hf _ hc
    exact ⟨a, ha, hr, by rw [e1, (accountFrom_fields hr).1]⟩

/-- Naming never fails when every account has a way from the top: the accounts form a tree. -/
theorem C105_total (env : GcEnv) (as : List GAccount) (cs order : List GcAcct) (hn : (as.map (·.guid)).Nodup) (hm : as.mapM (accountFrom env) = .ok cs)
    (ho : order.Perm cs) (hpar : ∀ a ∈ as, a.parentGuid ≠ [] → ∃ b ∈ as, b.guid = a.parentGuid) (hp : ∀ a ∈ as, ∃ p, NamePath as a p) :
    ∃ f m, nameAccounts cs order = .ok (f, m) := by
  have hf := (mapM_ok _ _ _).mp hm
  have hn' : (cs.map (·.guid)).Nodup := by rw [guids_map hm]; exact hn
  have hk : linked cs = true := by
    rw [linked_iff]
    intro c hc hne
    obtain ⟨a, ha, hr⟩ := forall2_mem_right hf c hc
    rw [(accountFrom_fields hr).2.2.2.1] at hne ⊢
    obtain ⟨b, hb, hg⟩ := hpar a ha hne
    obtain ⟨p, hpm, hpr⟩ := forall2_mem_left hf b hb
    exact ⟨p, by rw [← hg, ← (accountFrom_fields hpr).1]; exact byGuid_self hn' hpm⟩
  have hch : ∀ c ∈ order, ∃ l, GChain cs c l := by
    intro c hc
    have hc' := ho.mem_iff.mp hc
    obtain ⟨a, ha, hr⟩ := forall2_mem_right hf c hc'
    obtain ⟨l, hl⟩ := hp a ha
    exact path_chain hm hn hk hl c hc' hr
  obtain ⟨f, m, h, _⟩ := nameAll_spec hn' order (fun _ => []) [] (fun a ha => ho.mem_iff.mp ha) (namesOk_empty cs) hch (by simp)
  exact ⟨f, m, by unfold nameAccounts; rw [if_pos hk]; exact h⟩

/-- Accounts under the same parent, or both at the top. -/
def Siblings (as : List GAccount) (a b : GAccount) : Prop :=
  (∃ p q, NamePath as a [p] ∧ NamePath as b [q]) ∨ (¬ IsRootAcct a ∧ ¬ IsRootAcct b ∧ a.parentGuid = b.parentGuid)

/-- Full statement: if no two accounts under the same parent (or at the top) have the same name, and names are not empty and have no
colon, every account is written once, under a name of its own. -/
def C105_Statement : Prop := ∀ (env : GcEnv) (as : List GAccount) (f : NameOf) (m : ByName), (as.map (·.guid)).Nodup → GcNamed env as f m →
  (∀ a ∈ as, a.name ≠ [] ∧ ':' ∉ a.name) → (∀ a ∈ as, ∀ b ∈ as, a ≠ b → Siblings as a b → a.name ≠ b.name) →
  (m.map (fun e => (e.1, e.2.guid))).Perm (as.map (fun a => (f a.guid, a.guid)))

theorem path_name_last {as : List GAccount} {a : GAccount} {l : List Str} (h : NamePath as a l) : ∃ l0, l = l0 ++ [cleanName a.name] := by
  cases h with
  | root => exact ⟨[], rfl⟩
  | top => exact ⟨[], rfl⟩
  | child => exact ⟨_, rfl⟩

theorem NamePath.ne {as : List GAccount} {a : GAccount} {l : List Str} (h : NamePath as a l) : l ≠ [] := by
  obtain ⟨l0, rfl⟩ := path_name_last h
  simp

theorem cleanName_colon {n : Str} (h : ':' ∉ n) : ':' ∉ cleanName n := by
  unfold cleanName
  split
  · decide
  · intro hc; exact h (List.mem_filter.mp hc).1

theorem path_colon {as : List GAccount} (hc : ∀ a ∈ as, ':' ∉ a.name) {a : GAccount} {l : List Str} (h : NamePath as a l) (ha : a ∈ as) :
    ∀ s ∈ l, ':' ∉ s := by
  induction h with
  | root => intro s hs; simp only [List.mem_singleton] at hs; subst hs; exact cleanName_colon (hc _ ha)
  | top => intro s hs; simp only [List.mem_singleton] at hs; subst hs; exact cleanName_colon (hc _ ha)
  | child _ hb _ _ _ ih =>
    intro s hs
    rcases List.mem_append.mp hs with hs | hs
    · exact ih hb s hs
    · simp only [List.mem_singleton] at hs; subst hs; exact cleanName_colon (hc _ ha)

/-- Accounts with the same path are the same, if siblings have different names. -/
theorem path_inj {as : List GAccount} (hn : (as.map (·.guid)).Nodup) (hs : ∀ a ∈ as, ∀ b ∈ as, a ≠ b → Siblings as a b → cleanName a.name ≠ cleanName b.name)
    {a : GAccount} {l : List Str} (h : NamePath as a l) : ∀ b, a ∈ as → b ∈ as → NamePath as b l → a = b := by
  have single : ∀ (a b : GAccount) (s : Str), a ∈ as → b ∈ as → NamePath as a [s] → NamePath as b [s] → a = b := by
    intro a b s ha hb h1 h2
    by_contra hne
    refine hs a ha b hb hne (.inl ⟨_, _, h1, h2⟩) ?_
    obtain ⟨l1, e1⟩ := path_name_last h1
    obtain ⟨l2, e2⟩ := path_name_last h2
    have t1 := List.append_inj' (e1.symm.trans e2) rfl
    simpa using t1.2
  have ginj : ∀ (x y : GAccount), x ∈ as → y ∈ as → x.guid = y.guid → x = y := by
    intro x y hx hy e
    exact List.inj_on_of_nodup_map hn hx hy e
  induction h with
  | root h => intro b ha hb h2; exact single _ b _ ha hb (.root h) h2
  | top h1 h2 h3 h4 => intro b ha hb h'; exact single _ b _ ha hb (.top h1 h2 h3 h4) h'
  | @child a p l hr hp hg hpr hpl ih =>
    intro b ha hb h'
    generalize e : l ++ [cleanName a.name] = l' at h'
    cases h' with
    | root => 
      rcases l with _ | ⟨x, l⟩
      · exact absurd rfl hpl.ne
      · simp at e
    | top =>
      rcases l with _ | ⟨x, l⟩
      · exact absurd rfl hpl.ne
      · simp at e
    | @child _ q l2 hr2 hq hg2 hqr hql =>
      obtain ⟨e1, e2⟩ := List.append_inj' e rfl
      subst e1
      have hpq := ih q hp hq hql
      subst hpq
      by_contra hne
      refine hs a ha b hb hne (.inr ⟨hr, hr2, by rw [← hg, ← hg2]⟩) ?_
      simpa using e2

/-- **C105 (partial)** True when siblings differ also without the blanks. Missing: books where they do not, see below. -/
theorem C105_accounts_partial (env : GcEnv) (as : List GAccount) (f : NameOf) (m : ByName) (hn : (as.map (·.guid)).Nodup) (h : GcNamed env as f m)
    (hc : ∀ a ∈ as, ':' ∉ a.name) (hs : ∀ a ∈ as, ∀ b ∈ as, a ≠ b → Siblings as a b → cleanName a.name ≠ cleanName b.name) :
    (m.map (fun e => (e.1, e.2.guid))).Perm (as.map (fun a => (f a.guid, a.guid))) := by
  obtain ⟨hfull, _⟩ := C105_full_names env as f m hn h
  obtain ⟨cs, order, hm, ho, hk, hn', _, _, _, _, h5⟩ := named_spec hn h
  have hinj : (as.map (fun a => f a.guid)).Nodup := by
    refine List.Nodup.map_on ?_ (List.Nodup.of_map _ hn)
    intro a ha b hb e
    obtain ⟨p, hp, e1⟩ := hfull a ha
    obtain ⟨q, hq, e2⟩ := hfull b hb
    have hpq : p = q := by
      rw [← splitOn_joinWith p hp.ne (path_colon hc hp ha), ← splitOn_joinWith q hq.ne (path_colon hc hq hb), ← e1, ← e2, e]
    subst hpq
    exact path_inj hn hs hp b ha hb hq
  have hg := guids_map hm
  have hmap : ∀ (g : Str → Str × Str), cs.map (fun c => g c.guid) = as.map (fun a => g a.guid) := by
    intro g
    have := congrArg (List.map g) hg
    rw [List.map_map, List.map_map] at this
    exact this
  have e := h5 (by
    have := hmap (fun x => (f x, []))
    have e2 : cs.map (fun c => f c.guid) = as.map (fun a => f a.guid) := by
      have := congrArg (List.map f) hg
      rw [List.map_map, List.map_map] at this
      exact this
    rw [e2]; exact hinj)
  rw [e, List.map_map]
  have := (ho.map (fun a => (f a.guid, a.guid)))
  rw [hmap (fun g => (f g, g))] at this
  exact this

theorem ok_of_isOk {α} {x : Except Fault α} (h : x.isOk = true) : ∃ a, x = .ok a := by
  cases x with
  | ok a => exact ⟨a, rfl⟩
  | error e => cases h

def exGcEnv : GcEnv := ⟨fun i => if i = str "CAD" then some ⟨1, str "CAD", 2⟩ else none, str "CAD", fun _ => none, fun _ => 0⟩
def exGcRoot : GAccount := ⟨str "r", str "Root Account", str "ROOT", [], [], [], []⟩
def exGcBooks : List GAccount := [exGcRoot, ⟨str "a", str "My Bank", str "BANK", str "CAD", str "r", str "first", []⟩,
  ⟨str "b", str "MyBank", str "BANK", str "CAD", str "r", str "second", str "001 12345"⟩]
def exGcCreated : List GcAcct := [⟨str "r", str "Root", str "ROOT", [], ⟨1, str "CAD", 2⟩, [], [], []⟩,
  ⟨str "a", str "MyBank", str "BANK", str "r", ⟨1, str "CAD", 2⟩, str "first", [], []⟩,
  ⟨str "b", str "MyBank", str "BANK", str "r", ⟨1, str "CAD", 2⟩, str "second", str "001", str "12345"⟩]

theorem exGcBooks_created : exGcBooks.mapM (accountFrom exGcEnv) = .ok exGcCreated := by decide +kernel

theorem exGc_names : ∀ a ∈ exGcBooks, a.name ≠ [] ∧ ':' ∉ a.name := by decide
theorem exGc_differ : ∀ a ∈ exGcBooks, ∀ b ∈ exGcBooks, a ≠ b → a.name ≠ b.name := by decide

/-- **C105 is false** of the code: `My Bank` and `MyBank` become one account. -/
theorem C105_distinct_violated : ¬ C105_Statement := by
  intro h
  obtain ⟨⟨f, m⟩, hm⟩ := ok_of_isOk (show (nameAccounts exGcCreated exGcCreated).isOk = true by decide +kernel)
  have := (h exGcEnv exGcBooks f m (by decide) ⟨_, _, exGcBooks_created, List.Perm.refl _, hm⟩ exGc_names
    (fun a ha b hb hne _ => exGc_differ a ha b hb hne)).length_eq
  have h2 : (nameAccounts exGcCreated exGcCreated).map (fun r => r.2.length) = .ok 2 := by decide +kernel
  rw [hm] at h2
  have h3 : m.length = 2 := by simpa [Except.map] using h2
  rw [List.length_map, List.length_map, h3] at this
  exact absurd this (by decide)

/-- What is written does not depend on the iteration order of the maps. -/
def C105_OrderStatement : Prop := ∀ (env : GcEnv) (as : List GAccount) (f f' : NameOf) (m m' : ByName), (as.map (·.guid)).Nodup →
  GcNamed env as f m → GcNamed env as f' m' → (m.map (fun e => (e.1, e.2.description))).Perm (m'.map (fun e => (e.1, e.2.description)))

/-- False: which of the two accounts is written depends on it. -/
theorem C105_order_violated : ¬ C105_OrderStatement := by
  intro h
  obtain ⟨⟨f, m⟩, hm⟩ := ok_of_isOk (show (nameAccounts exGcCreated exGcCreated).isOk = true by decide +kernel)
  obtain ⟨⟨f', m'⟩, hm'⟩ := ok_of_isOk (show (nameAccounts exGcCreated exGcCreated.reverse).isOk = true by decide +kernel)
  have := h exGcEnv exGcBooks f f' m m' (by decide) ⟨_, _, exGcBooks_created, List.Perm.refl _, hm⟩ ⟨_, _, exGcBooks_created, List.reverse_perm _, hm'⟩
  have h1 : (nameAccounts exGcCreated exGcCreated).map (fun r => r.2.map (fun e => (e.1, e.2.description))) =
      .ok [(str "Root", []), (str "MyBank", str "second")] := by decide +kernel
  have h2 : (nameAccounts exGcCreated exGcCreated.reverse).map (fun r => r.2.map (fun e => (e.1, e.2.description))) =
      .ok [(str "MyBank", str "first"), (str "Root", [])] := by decide +kernel
  rw [hm] at h1
  rw [hm'] at h2
  simp only [Except.map, Except.ok.injEq] at h1 h2
  rw [h1, h2] at this
  have := this.mem_iff (a := (str "MyBank", str "second"))
  exact absurd (this.mp (by decide)) (by decide)

/-- A book that meets the hypotheses of the partial theorem, three levels deep. -/
def exGcTree : List GAccount := [⟨str "c", str "Joint Account", str "BANK", str "CAD", str "b", [], []⟩, exGcRoot,
  ⟨str "b", str "My Bank", str "ASSET", str "CAD", str "a", [], []⟩, ⟨str "a", str "Assets", str "ASSET", str "CAD", str "r", [], []⟩]

example : (exGcTree.mapM (accountFrom exGcEnv)).bind (fun cs => (nameAccounts cs cs.reverse).map (fun r => r.2.map (·.1))) =
    .ok [str "Assets", str "Assets:MyBank", str "Root", str "Assets:MyBank:JointAccount"] := by decide +kernel

example : ∀ a ∈ exGcTree, ∀ b ∈ exGcTree, a ≠ b → cleanName a.name ≠ cleanName b.name := by decide

/-- The other fields of an account: the commodity it names, or the default one; the description; and the ids. -/
theorem C105_fields (env : GcEnv) (a : GAccount) (c : GcAcct) (h : accountFrom env a = .ok c) :
    env.coms (if a.comId = [] then env.dflt else a.comId) = some c.com ∧ c.description = a.description ∧ onlineIds a.onlineId = .ok (c.bank, c.acct) := by
  unfold accountFrom at h
  split at h
  · cases h
  · obtain ⟨com, hc, h⟩ := bind_ok.mp h
    obtain ⟨ids, hi, h⟩ := bind_ok.mp h
    cases h
    refine ⟨?_, rfl, hi⟩
    unfold GcEnv.find at hc
    by_cases e : a.comId = []
    · rw [if_pos e]
      rw [if_neg (by simp [e])] at hc
      cases hd : env.coms env.dflt with
      | none => rw [hd] at hc; cases hc
      | some d => rw [hd] at hc; cases hc; rfl
    · rw [if_neg e]
      rw [if_pos e] at hc
      cases hd : env.coms a.comId with
      | none => rw [hd] at hc; cases hc
      | some d => rw [hd] at hc; cases hc; rfl

theorem digits_head {s t : Str} (h : ∀ x ∈ s, isDigit x = true) (hne : s ≠ []) : ∀ y u, s ++ t = y :: u → isWs y = false := by
  intro y u e
  cases s with
  | nil => exact absurd rfl hne
  | cons x s =>
    rw [List.cons_append, List.cons.injEq] at e
    rw [← e.1]
    have := h x (by simp)
    revert this
    unfold isDigit isWs
    intro hd
    simp only [Bool.and_eq_true, decide_eq_true_eq] at hd
    have ne : ∀ c : Char, c.toNat < 48 → decide (x = c) = false := by
      intro c hc
      rw [decide_eq_false_iff_not]
      rintro rfl
      omega
    rw [ne ' ' (by decide), ne '\t' (by decide), ne '\n' (by decide), ne '\x0c' (by decide), ne '\r' (by decide)]
    rfl

/-- The ids of the bank and the account are those of the slot `online_id`; without digits the conversion panics. -/
theorem C105_online (bank gap acct : Str) (hb : bank ≠ [] ∧ ∀ x ∈ bank, isDigit x = true) (hg : gap ≠ [] ∧ ∀ x ∈ gap, x = ' ') (ha : acct ≠ [] ∧ ∀ x ∈ acct, isDigit x = true) :
    onlineIds (bank ++ gap ++ acct) = .ok (bank, acct) ∧ onlineIds acct = .ok ([], acct) ∧ onlineIds [] = .ok ([], []) := by
  have hgw : ∀ x ∈ gap, isWs x = true := by intro x hx; rw [hg.2 x hx]; decide
  refine ⟨?_, ?_, rfl⟩
  · have run : RunsTo onlineIdRe ((bank ++ gap) ++ acct) [] [] [(str "acct", acct), (str "bank", bank)] := by
      refine RunsTo.seq (RunsTo.opt (RunsTo.seq (RunsTo.grp (RunsTo.plus hb.1 hb.2 ?_ _)) (RunsTo.plus hg.1 hgw ?_ _))) (RunsTo.grp (RunsTo.plus ha.1 ha.2 ?_ _))
      · intro y t e
        obtain ⟨z, g, rfl⟩ : ∃ z g, gap = z :: g := by
          cases gap with
          | nil => exact absurd rfl hg.1
          | cons z g => exact ⟨z, g, rfl⟩
        rw [List.cons_append, List.cons.injEq] at e
        rw [← e.1, hg.2 z (by simp)]
        decide
      · exact digits_head ha.2 ha.1
      · intro y t e; cases e
    have := run.matches
    simp only [List.append_nil] at this
    unfold onlineIds
    rw [if_neg (by simp [hb.1]), this]
    rfl
  · have run : RunsTo onlineIdRe ([] ++ acct) [] [] [(str "acct", acct)] := by
      refine RunsTo.seq (RunsTo.optNone ?_) (RunsTo.grp (RunsTo.plus ha.1 ha.2 ?_ _))
      · refine NoMatch.seqR (fun s1 s2 c c' e hm => NoMatch.plus ?_)
        intro x t e2
        have hx : x ∈ acct := by
          rw [List.append_nil] at e
          rw [e, e2]; simp
        have := digits_head (s := [x]) (t := t) (by simpa using ha.2 x hx) (by simp)
        exact this x t rfl
      · intro y t e; cases e
    have := run.matches
    simp only [List.append_nil, List.nil_append] at this
    unfold onlineIds
    rw [if_neg ha.1, this]
    rfl

/-- Without digits there is nothing to index. -/
theorem C105_online_panic (s : Str) (hne : s ≠ []) (h : ∀ x ∈ s, isDigit x = false) : onlineIds s = .error .panic := by
  unfold onlineIds
  rw [if_neg hne]
  have : onlineIdRe.matches s = none := by
    refine NoMatch.noMatches ?_
    intro pre t e
    have ht : ∀ x ∈ t, isDigit x = false := fun x hx => h x (by rw [e]; simp [hx])
    refine NoMatch.seqR (fun s1 s2 c c' e2 hm => NoMatch.grp (NoMatch.plus ?_))
    intro x u e3
    exact ht x (by rw [e2, e3]; simp)
  rw [this]

example : onlineIds (str "001" ++ str " " ++ str "12345") = .ok (str "001", str "12345") := (C105_online _ _ _ (by decide) (by decide) (by decide)).1
example : onlineIds (str "none") = .error .panic := C105_online_panic _ (by decide) (by decide)

/-! ## C106: amounts -/

theorem bigSetString_digits {s : Str} (hne : s ≠ []) (h : s.all isDigit = true) : bigSetString s = some (strNat s : Int) := by
  unfold bigSetString
  split
  · simp [isDigit] at h
  · simp [isDigit] at h
  · rw [if_pos ⟨hne, h⟩]

theorem bigSetString_itoa (n : Int) : bigSetString (itoa n) = some n := by
  unfold itoa
  split
  · unfold bigSetString
    simp only []
    rw [if_pos ⟨natStr_ne_nil _, natStr_allDigits _⟩, strNat_natStr]
    congr 1
    omega
  · rw [bigSetString_digits (natStr_ne_nil _) (natStr_allDigits _), strNat_natStr]
    congr 1
    omega

theorem itoa_slash (n : Int) : '/' ∉ itoa n := by
  have : ∀ k, '/' ∉ natStr k := fun k h => absurd (List.all_eq_true.mp (natStr_allDigits k) _ h) (by decide)
  unfold itoa
  split
  · intro h
    rcases List.mem_cons.mp h with h | h
    · exact absurd h (by decide)
    · exact this _ h
  · exact this _

/-- A value in a GnuCash file: a fraction of two decimal numbers. -/
def fractionText (n : Int) (d : Nat) : Str := itoa n ++ '/' :: natStr d

theorem gcAmount_fraction (env : GcEnv) (n : Int) (d : Nat) (c : Com) (hd : 0 < d) : gcAmount env (fractionText n d) c = newAmountFrac n d c := by
  unfold gcAmount fractionText
  have e : splitOn '/' (itoa n ++ '/' :: natStr d) = [itoa n, natStr d] := by
    have hj : itoa n ++ '/' :: natStr d = joinWith ['/'] [itoa n, natStr d] := by simp [joinWith]
    have hs : '/' ∉ natStr d := fun h => absurd (List.all_eq_true.mp (natStr_allDigits d) _ h) (by decide)
    rw [splitOn_append_sep _ _ _ (itoa_slash n), splitOn_noSep _ _ hs]
  rw [e]
  dsimp only
  unfold amountOf
  rw [bigSetString_itoa, bigSetString_digits (natStr_ne_nil _) (natStr_allDigits _), strNat_natStr]
  simp only [Option.getD_some]
  rw [if_neg (by omega)]

/-- **C106** A fraction is read as the largest amount of the commodity that is not more, for every numerator and denominator. -/
theorem C106_fraction (env : GcEnv) (n : Int) (d : Nat) (c : Com) (hc : c.decimals ≤ 50) (hd : 0 < d) :
    ∃ a, gcAmount env (fractionText n d) c = .ok a ∧ a.com = c ∧ (a.int : ℚ) / 10 ^ c.decimals ≤ n / d ∧ (n : ℚ) / d < (a.int + 1) / 10 ^ c.decimals := by
  obtain ⟨a, h1, h2, h3, h4⟩ := C10_frac_floor n d c hc (by exact_mod_cast hd)
  refine ⟨a, by rw [gcAmount_fraction env n d c hd]; exact h1, h2, ?_, ?_⟩
  · rw [div_le_div_iff₀ (by positivity) (by exact_mod_cast hd)]
    exact_mod_cast h3
  · rw [div_lt_div_iff₀ (by exact_mod_cast hd) (by positivity)]
    exact_mod_cast h4

/-- Full statement: the amount is the fraction. -/
def C106_Statement : Prop := ∀ (env : GcEnv) (n : Int) (d : Nat) (c : Com), c.decimals ≤ 50 → 0 < d →
  ∃ a, gcAmount env (fractionText n d) c = .ok a ∧ a.com = c ∧ (a.int : ℚ) / 10 ^ c.decimals = n / d

/-- **C106 (partial)** The amount is exact if the denominator divides a power of ten that the commodity has. Missing: finer fractions. -/
theorem C106_exact_partial (env : GcEnv) (n : Int) (d : Nat) (c : Com) (hc : c.decimals ≤ 50) (hd : d ∣ 10 ^ c.decimals) :
    ∃ a, gcAmount env (fractionText n d) c = .ok a ∧ a.com = c ∧ (a.int : ℚ) / 10 ^ c.decimals = n / d := by
  have hpos : 0 < d := Nat.pos_of_dvd_of_pos hd (by positivity)
  obtain ⟨a, h1, h2, h3, h4⟩ := C10_frac_floor n d c hc (by exact_mod_cast hpos)
  refine ⟨a, by rw [gcAmount_fraction env n d c hpos]; exact h1, h2, ?_⟩
  obtain ⟨k, hk⟩ := hd
  have hk' : (10 : Int) ^ c.decimals = d * k := by exact_mod_cast hk
  have e : a.int = n * k := by
    rw [hk'] at h3 h4
    have e3 : a.int * d ≤ (n * k) * d := by linarith [h3, mul_comm (n * (d : Int)) k, mul_assoc n (d : Int) k, mul_assoc n (k : Int) d, mul_comm (k : Int) d]
    have e4 : (n * k) * d < (a.int + 1) * d := by linarith [h4, mul_assoc n (d : Int) k, mul_assoc n (k : Int) d, mul_comm (k : Int) d]
    have hp : (0 : Int) < d := by exact_mod_cast hpos
    have l1 := le_of_mul_le_mul_right e3 hp
    have l2 := lt_of_mul_lt_mul_right e4 (le_of_lt hp)
    omega
  rw [div_eq_div_iff (by positivity) (by positivity), e]
  have : (10 : ℚ) ^ c.decimals = d * k := by exact_mod_cast hk
  rw [this]
  push_cast
  ring

/-- False: an account may have a smaller unit than its commodity, and prices have more digits than the currency. -/
theorem C106_exact_violated : ¬ C106_Statement := by
  intro h
  obtain ⟨a, h1, _, h2⟩ := h exGcEnv 9416 10000 ⟨1, str "USD", 2⟩ (by decide) (by decide)
  have : gcAmount exGcEnv (fractionText 9416 10000) ⟨1, str "USD", 2⟩ = .ok ⟨94, ⟨1, str "USD", 2⟩⟩ := by decide +kernel
  rw [this] at h1
  cases h1
  norm_num at h2

/-- **C106** A price keeps its commodity, its currency and its date; its value is that of the fraction in the currency, exactly if the
denominator divides the unit of the currency. -/
theorem C106_price (env : GcEnv) (com cur : Com) (n : Int) (d : Nat) (q : GPrice) (t : Stamp) (h1 : env.find q.comId = .ok com) (h2 : env.find q.curId = .ok cur)
    (h3 : mustParseTimeStamp env q.date = .ok t) (hv : q.value = fractionText n d) (hc : cur.decimals ≤ 50) (hd : d ∣ 10 ^ cur.decimals) :
    ∃ p, gcPriceFrom env q = .ok p ∧ p.com = com ∧ p.cur = cur ∧ p.time = t ∧ p.value.com = cur ∧ (p.value.int : ℚ) / 10 ^ cur.decimals = n / d := by
  obtain ⟨a, e1, e2, e3⟩ := C106_exact_partial env n d cur hc hd
  refine ⟨⟨com, cur, a, t⟩, ?_, rfl, rfl, rfl, e2, e3⟩
  unfold gcPriceFrom
  rw [h1, h2, hv, h3]
  simp only [Except.bind]
  rw [e1]

/-- A transaction that is balanced stays so: its splits in one commodity, as fractions. -/
def C106_BalanceStatement : Prop := ∀ (env : GcEnv) (c : Com) (fs : List (Int × Nat)) (as : List Amount), c.decimals ≤ 50 → (∀ f ∈ fs, 0 < f.2) →
  (fs.map (fun f => (f.1 : ℚ) / f.2)).sum = 0 → fs.mapM (fun f => gcAmount env (fractionText f.1 f.2) c) = .ok as → (as.map (·.int)).sum = 0

/-- False: amounts are rounded down, whatever their sign. -/
theorem C106_balanced_violated : ¬ C106_BalanceStatement := by
  intro h
  have := h exGcEnv ⟨1, str "CAD", 2⟩ [(5, 1000), (-5, 1000)] [⟨0, ⟨1, str "CAD", 2⟩⟩, ⟨-1, ⟨1, str "CAD", 2⟩⟩] (by decide) (by decide) (by norm_num) (by decide +kernel)
  exact absurd this (by decide)

/-- Balanced transactions stay balanced when the denominators divide the unit of the commodity. -/
theorem C106_balanced_partial (env : GcEnv) (c : Com) (fs : List (Int × Nat)) (as : List Amount) (hc : c.decimals ≤ 50) (hd : ∀ f ∈ fs, f.2 ∣ 10 ^ c.decimals)
    (hsum : (fs.map (fun f => (f.1 : ℚ) / f.2)).sum = 0) (h : fs.mapM (fun f => gcAmount env (fractionText f.1 f.2) c) = .ok as) :
    (as.map (·.int)).sum = 0 := by
  have hf := (mapM_ok _ _ _).mp h
  have key : (((as.map (·.int)).sum : Int) : ℚ) / 10 ^ c.decimals = (fs.map (fun f => (f.1 : ℚ) / f.2)).sum := by
    clear hsum h
    induction hf with
    | nil => simp
    | @cons f a fs as h _ ih =>
      obtain ⟨a', h1, _, h2⟩ := C106_exact_partial env f.1 f.2 c hc (hd f (by simp))
      rw [h] at h1
      cases h1
      rw [List.map_cons, List.map_cons, List.sum_cons, List.sum_cons, ← ih (fun f hf => hd f (by simp [hf])), ← h2]
      push_cast
      ring
  rw [hsum, div_eq_zero_iff] at key
  rcases key with key | key
  · exact Int.cast_eq_zero.mp key
  · exact absurd key (by positivity)

/-- The digits of a commodity are those of its fraction. -/
theorem C106_decimals (c : GCommodity) (k : Nat) (hk : k ≤ 18) (h : c.fraction = 10 ^ k) : (commodityFrom c).decimals = k := by
  unfold commodityFrom
  rw [h]
  exact C09_setFraction ⟨0, [], 0⟩ k hk

/-- A commodity whose fraction is missing, as the schema allows for currencies, has no digits: amounts are cut to whole units. -/
theorem C106_no_fraction (id name : Str) : (commodityFrom ⟨id, name, 0⟩).decimals = 0 := rfl

example : gcAmount exGcEnv (str "1999/100") ⟨1, str "CAD", (commodityFrom ⟨str "CAD", [], 0⟩).decimals⟩ = .ok ⟨19, ⟨1, str "CAD", 0⟩⟩ := by decide +kernel
example : gcAmount exGcEnv (str "-100000/200") ⟨1, str "CAD", 2⟩ = .ok ⟨-50000, ⟨1, str "CAD", 2⟩⟩ := by decide +kernel
example : (10 : Nat) ^ 1 * 2 ∣ 10 ^ 2 := by decide

/-- Texts that are not fractions of a number and a positive number panic. -/
theorem C106_invalid (env : GcEnv) (s : Str) (c : Com) (h : (splitOn '/' s).length ≠ 2) : gcAmount env s c = .error .panic := by
  unfold gcAmount
  split
  · rename_i e; rw [e] at h; exact absurd rfl h
  · rfl

theorem C106_zero_denominator (env : GcEnv) (n : Int) (c : Com) : gcAmount env (fractionText n 0) c = .error .panic := by
  unfold gcAmount fractionText
  have hs : '/' ∉ natStr 0 := by decide +kernel
  rw [splitOn_append_sep _ _ _ (itoa_slash n), splitOn_noSep _ _ hs]
  dsimp only
  unfold amountOf
  rw [bigSetString_digits (natStr_ne_nil _) (natStr_allDigits _), strNat_natStr]
  simp

end Verif
