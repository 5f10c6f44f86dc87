import Verif.Model.Rules
import Verif.Lemmas.Parser
import Verif.Lemmas.Ledger
/-
C69, C70, C75, C76: rules for imported transactions.
-/
namespace Verif

/-! ## C69: First matching rule wins -/

/-- `rules` are the rules of `items` in textual order, those of a referenced set standing in place of the reference. -/
inductive Flat (sets : List RuleSet) : List RuleItem → List Rule → Prop
  | nil : Flat sets [] []
  | rule {r rest rs} : Flat sets rest rs → Flat sets (.rule r :: rest) (r :: rs)
  | ref {i s rest xs ys} : sets[i]? = some s → Flat sets s.items xs → Flat sets rest ys → Flat sets (.ref i :: rest) (xs ++ ys)

/-- A rule can be reached from `items`, directly or through sets. -/
inductive Reaches (sets : List RuleSet) : List RuleItem → Rule → Prop
  | here {items r} : RuleItem.rule r ∈ items → Reaches sets items r
  | through {items i s r} : RuleItem.ref i ∈ items → sets[i]? = some s → Reaches sets s.items r → Reaches sets items r

theorem ruleFor_unfold (m : Str → Str → Bool) (sets : List RuleSet) (payee : Str) (n : Nat) :
    ruleFor m sets payee n = ruleLoop m sets payee (match n with | 0 => fun _ => .error .loop | n + 1 => ruleFor m sets payee n) := by
  cases n <;> rfl

/-- More depth does not change a result. -/
theorem ruleFor_mono {m : Str → Str → Bool} {sets : List RuleSet} {payee : Str} {n : Nat} : ∀ {items : List RuleItem} {o : Option Rule},
    ruleFor m sets payee n items = .ok o → ruleFor m sets payee (n + 1) items = .ok o := by
  induction n with
  | zero =>
    intro items o h
    induction items with
    | nil => exact h
    | cons it items ih =>
      cases it with
      | rule r =>
        rw [ruleFor, ruleLoop] at h
        show ruleLoop m sets payee (ruleFor m sets payee 0) _ = _
        rw [ruleLoop]
        split
        · next hm => rw [if_pos hm] at h; exact h
        · next hm => rw [if_neg hm] at h; exact ih h
      | ref i =>
        rw [ruleFor, ruleLoop] at h
        split at h <;> cases h
  | succ n ihn =>
    intro items o h
    induction items with
    | nil => exact h
    | cons it items ih =>
      cases it with
      | rule r =>
        rw [ruleFor, ruleLoop] at h ⊢
        split
        · next hm => rw [if_pos hm] at h; exact h
        · next hm => rw [if_neg hm] at h; exact ih h
      | ref i =>
        rw [ruleFor, ruleLoop] at h ⊢
        split at h
        · cases h
        · next s hs =>
          obtain ⟨x, hx, h⟩ := bind_ok.mp h
          simp only [ihn hx, Except.bind]
          cases x with
          | some r => exact h
          | none => exact ih h

theorem ruleFor_mono_le {m : Str → Str → Bool} {sets : List RuleSet} {payee : Str} {n k : Nat} (hk : n ≤ k) {items : List RuleItem} {o : Option Rule}
    (h : ruleFor m sets payee n items = .ok o) : ruleFor m sets payee k items = .ok o := by
  induction hk with
  | refl => exact h
  | step _ ih => exact ruleFor_mono ih

/-- **C69** When the references lead nowhere twice, `RuleFor` returns the first rule in textual order, through the referenced sets, whose
pattern matches the payee, and nothing when there is none. -/
theorem C69_first (m : Str → Str → Bool) (sets : List RuleSet) (payee : Str) (items : List RuleItem) (rules : List Rule)
    (h : Flat sets items rules) : ∃ n, ∀ k, n ≤ k → ruleFor m sets payee k items = .ok (rules.find? (fun r => m r.src payee)) := by
  have main : ∃ n, ruleFor m sets payee n items = .ok (rules.find? (fun r => m r.src payee)) := by
    induction h with
    | nil => exact ⟨0, rfl⟩
    | @rule r rest rs _ ih =>
      obtain ⟨n, h⟩ := ih
      refine ⟨n, ?_⟩
      rw [ruleFor_unfold, ruleLoop, List.find?_cons]
      rw [ruleFor_unfold] at h
      by_cases hm : m r.src payee
      · rw [if_pos hm, hm]
      · rw [if_neg hm, h]; simp [hm]
    | @ref i s rest xs ys hs _ _ ih1 ih2 =>
      obtain ⟨n1, h1⟩ := ih1
      obtain ⟨n2, h2⟩ := ih2
      refine ⟨max n1 n2 + 1, ?_⟩
      rw [ruleFor, ruleLoop, hs]
      simp only [ruleFor_mono_le (Nat.le_max_left n1 n2) h1, Except.bind]
      rw [List.find?_append]
      cases xs.find? (fun r => m r.src payee) with
      | some r => rfl
      | none =>
        have := ruleFor_mono_le (Nat.le_trans (Nat.le_max_right n1 n2) (Nat.le_succ _)) h2
        rw [ruleFor] at this
        exact this
  obtain ⟨n, h⟩ := main
  exact ⟨n, fun k hk => ruleFor_mono_le hk h⟩

/-- **C69** Whatever the references: a returned rule can be reached and matches, and when nothing is returned nothing that can be
reached matches. -/
theorem C69_sound (m : Str → Str → Bool) (sets : List RuleSet) (payee : Str) (n : Nat) (items : List RuleItem) (o : Option Rule)
    (h : ruleFor m sets payee n items = .ok o) :
    (∀ r, o = some r → m r.src payee = true ∧ Reaches sets items r) ∧ (o = none → ∀ r, Reaches sets items r → m r.src payee = false) := by
  have grow : ∀ {it : RuleItem} {rest : List RuleItem} {r : Rule}, Reaches sets rest r → Reaches sets (it :: rest) r := by
    intro it rest r h
    cases h with
    | here h => exact .here (List.mem_cons_of_mem _ h)
    | through h h1 h2 => exact .through (List.mem_cons_of_mem _ h) h1 h2
  induction n generalizing items o with
  | zero =>
    induction items with
    | nil =>
      cases h
      refine ⟨by simp, fun _ r hr => ?_⟩
      cases hr with
      | here h => simp at h
      | through h => simp at h
    | cons it items ih =>
      cases it with
      | rule r =>
        rw [ruleFor, ruleLoop] at h
        split at h
        · next hm => cases h; exact ⟨fun r' e => by cases e; exact ⟨hm, .here (by simp)⟩, fun e => by cases e⟩
        · next hm =>
          obtain ⟨h1, h2⟩ := ih h
          refine ⟨fun r' e => ⟨(h1 r' e).1, grow (h1 r' e).2⟩, fun e r' hr => ?_⟩
          cases hr with
          | here hr =>
            rcases List.mem_cons.mp hr with hr | hr
            · cases hr; simpa using hm
            · exact h2 e r' (.here hr)
          | through hr g1 g2 =>
            rcases List.mem_cons.mp hr with hr | hr
            · cases hr
            · exact h2 e r' (.through hr g1 g2)
      | ref i =>
        rw [ruleFor, ruleLoop] at h
        split at h <;> cases h
  | succ n ihn =>
    induction items with
    | nil =>
      cases h
      refine ⟨by simp, fun _ r hr => ?_⟩
      cases hr with
      | here h => simp at h
      | through h => simp at h
    | cons it items ih =>
      cases it with
      | rule r =>
        rw [ruleFor, ruleLoop] at h
        split at h
        · next hm => cases h; exact ⟨fun r' e => by cases e; exact ⟨hm, .here (by simp)⟩, fun e => by cases e⟩
        · next hm =>
          obtain ⟨h1, h2⟩ := ih h
          refine ⟨fun r' e => ⟨(h1 r' e).1, grow (h1 r' e).2⟩, fun e r' hr => ?_⟩
          cases hr with
          | here hr =>
            rcases List.mem_cons.mp hr with hr | hr
            · cases hr; simpa using hm
            · exact h2 e r' (.here hr)
          | through hr g1 g2 =>
            rcases List.mem_cons.mp hr with hr | hr
            · cases hr
            · exact h2 e r' (.through hr g1 g2)
      | ref i =>
        rw [ruleFor, ruleLoop] at h
        split at h
        · cases h
        · next s hs =>
          obtain ⟨x, hx, h⟩ := bind_ok.mp h
          cases x with
          | some r =>
            cases h
            obtain ⟨h1, _⟩ := ihn _ _ hx
            refine ⟨fun r' e => ?_, fun e => by cases e⟩
            obtain ⟨g1, g2⟩ := h1 r' e
            exact ⟨g1, .through (by simp) hs g2⟩
          | none =>
            obtain ⟨_, h0⟩ := ihn _ _ hx
            obtain ⟨h1, h2⟩ := ih h
            refine ⟨fun r' e => ⟨(h1 r' e).1, grow (h1 r' e).2⟩, fun e r' hr => ?_⟩
            cases hr with
            | here hr =>
              rcases List.mem_cons.mp hr with hr | hr
              · cases hr
              · exact h2 e r' (.here hr)
            | through hr g1 g2 =>
              rcases List.mem_cons.mp hr with hr | hr
              · cases hr
                rw [hs] at g1
                cases g1
                exact h0 rfl r' g2
              · exact h2 e r' (.through hr g1 g2)

/-- A set of two rules, used between two rules of an account. -/
def exSets : List RuleSet := [⟨str "common", [.rule ⟨some (str "Food"), str "SHOP", []⟩, .rule ⟨some (str "Gas"), str "SHELL", []⟩]⟩]
def exItems : List RuleItem := [.rule ⟨some (str "Pay"), str "ACME", []⟩, .ref 0, .rule ⟨none, str "SHELL", []⟩]

example : Flat exSets exItems [⟨some (str "Pay"), str "ACME", []⟩, ⟨some (str "Food"), str "SHOP", []⟩, ⟨some (str "Gas"), str "SHELL", []⟩,
    ⟨none, str "SHELL", []⟩] :=
  .rule (.ref (xs := [_, _]) rfl (.rule (.rule .nil)) (.rule .nil))
example : ruleFor (fun p s => decide (p = s)) exSets (str "SHELL") 1 exItems = .ok (some ⟨some (str "Gas"), str "SHELL", []⟩) := by decide +kernel

/-! ## C70: Rule lookup terminates -/

/-- References of a section lead to sets of the file, those of a set to that set or earlier ones. -/
structure RefsBack (ri : RuleIndex) : Prop where
  sets : ∀ (i : Nat) (s : RuleSet), ri.sets[i]? = some s → ∀ j, RuleItem.ref j ∈ s.items → j ≤ i
  accounts : ∀ e ∈ ri.accounts, ∀ j, RuleItem.ref j ∈ e.2.items → j < ri.sets.length

theorem lastSet_lt {sets : List RuleSet} {name : Str} {i : Nat} (h : lastSet sets name = some i) : i < sets.length := by
  unfold lastSet at h
  split at h
  · next k hk =>
    have := (List.findIdx?_eq_some_iff_getElem.mp hk).1
    simp only [List.length_reverse] at this
    cases h
    omega
  · cases h

/-- A reference names the last set of that name. -/
theorem lastSet_spec {sets : List RuleSet} {name : Str} {i : Nat} (h : lastSet sets name = some i) :
    ∃ s, sets[i]? = some s ∧ s.name = name ∧ ∀ (j : Nat) (s' : RuleSet), i < j → sets[j]? = some s' → s'.name ≠ name := by
  have hlt := lastSet_lt h
  unfold lastSet at h
  split at h
  · next k hk =>
    obtain ⟨hk1, hk2, hk3⟩ := List.findIdx?_eq_some_iff_getElem.mp hk
    simp only [Option.some.injEq] at h
    simp only [List.length_reverse] at hk1
    refine ⟨sets[i], List.getElem?_eq_getElem hlt, ?_, ?_⟩
    · simp only [decide_eq_true_eq] at hk2
      rw [← hk2, List.getElem_reverse]
      congr 1; simp only [h]
    · intro j s' hj hs'
      obtain ⟨hjl, hje⟩ := List.getElem?_eq_some_iff.mp hs'
      have := hk3 (sets.length - 1 - j) (by omega)
      rw [List.getElem_reverse] at this
      have e : sets.length - 1 - (sets.length - 1 - j) = j := by omega
      simp only [e, decide_eq_true_eq] at this
      rw [← hje]; exact this
  · cases h

theorem addNote_ref {items : List RuleItem} {n : Str} {j : Nat} (h : RuleItem.ref j ∈ addNote items n) : RuleItem.ref j ∈ items := by
  induction items with
  | nil => simp [addNote] at h
  | cons x rest ih =>
    cases rest with
    | nil =>
      cases x with
      | rule r => simp [addNote] at h
      | ref i => simpa [addNote] using h
    | cons y rest =>
      rw [addNote] at h
      rcases List.mem_cons.mp h with h | h
      · rw [h]; simp
      · exact List.mem_cons_of_mem _ (ih h)

theorem bodyLoop_refs {env : RuleEnv} {sets : List RuleSet} {lines : List Str} {items : List RuleItem} {r : List RuleItem × List Str}
    (hi : ∀ j, RuleItem.ref j ∈ items → j < sets.length) (h : bodyLoop env sets items lines = .ok r) :
    ∀ j, RuleItem.ref j ∈ r.1 → j < sets.length := by
  induction lines generalizing items with
  | nil => cases h; exact hi
  | cons line rest ih =>
    unfold bodyLoop at h
    split at h
    · cases h; exact hi
    · next m _ =>
      obtain ⟨items', h1, h⟩ := bind_ok.mp h
      refine ih ?_ h
      unfold bodyLine at h1
      split at h1
      · obtain ⟨a, _, h1⟩ := bind_ok.mp h1
        split at h1
        · cases h1
          intro j hj
          rcases List.mem_append.mp hj with hj | hj
          · exact hi j hj
          · simp at hj
        · cases h1
      · split at h1
        · split at h1
          · cases h1
          · next i hl =>
            cases h1
            intro j hj
            rcases List.mem_append.mp hj with hj | hj
            · exact hi j hj
            · simp only [List.mem_singleton, RuleItem.ref.injEq] at hj
              subst hj
              exact lastSet_lt hl
        · cases h1
          intro j hj
          exact hi j (addNote_ref hj)

theorem scanRules_refs {env : RuleEnv} {n : Nat} {ri ri' : RuleIndex} {lines : List Str} (hi : RefsBack ri)
    (h : scanRules env n ri lines = .ok ri') : RefsBack ri' := by
  induction n generalizing ri lines with
  | zero => unfold scanRules at h; cases h; exact hi
  | succ n ih =>
    cases lines with
    | nil => unfold scanRules at h; cases h; exact hi
    | cons line rest =>
      unfold scanRules at h
      split at h
      · split at h
        · cases h; exact hi
        · exact ih hi h
      · next m _ =>
        split at h
        · obtain ⟨a, _, h⟩ := bind_ok.mp h
          obtain ⟨r, h2, h⟩ := bind_ok.mp h
          refine ih ?_ h
          have := bodyLoop_refs (by simp) h2
          refine ⟨hi.sets, ?_⟩
          intro e he j hj
          rcases List.mem_cons.mp he with rfl | he
          · exact this j hj
          · exact hi.accounts e he j hj
        · obtain ⟨r, h2, h⟩ := bind_ok.mp h
          refine ih ?_ h
          have := bodyLoop_refs (by simp) h2
          refine ⟨?_, ?_⟩
          · intro i s hs j hj
            by_cases hil : i < ri.sets.length
            · rw [List.getElem?_append_left hil] at hs
              exact hi.sets i s hs j hj
            · rw [List.getElem?_append_right (by omega)] at hs
              have h0 : i - ri.sets.length = 0 := by
                have := List.getElem?_eq_some_iff.mp hs
                have := this.1
                simp at this; omega
              rw [h0] at hs
              simp only [List.getElem?_cons_zero, Option.some.injEq] at hs
              subst hs
              have := this j hj
              simp only [List.length_append, List.length_singleton] at this
              omega
          · intro e he j hj
            have := hi.accounts e he j hj
            simp only [List.length_append, List.length_singleton]
            omega

/-- In a file that is accepted every reference leads to a set of the file, in a set to that set or an earlier one. -/
theorem C70_refsBack (env : RuleEnv) (text : Str) (ri : RuleIndex) (h : readRules env text = .ok (some ri)) : RefsBack ri := by
  unfold readRules at h
  split at h
  · cases h
  · obtain ⟨r, h1, h⟩ := bind_ok.mp h
    cases h
    exact scanRules_refs ⟨by simp, by simp⟩ h1

/-- Full statement of C70: for every rule file that is accepted, looking up the rule of any payee ends. -/
def C70_Statement : Prop := ∀ (env : RuleEnv) (text : Str) (ri : RuleIndex), readRules env text = .ok (some ri) →
  ∀ (m : Str → Str → Bool) (payee : Str), ∀ e ∈ ri.accounts, ∃ n o, ruleFor m ri.sets payee n e.2.items = .ok o

/-- A set that refers to itself. -/
def exLoop : Str := str "common\n  @common\n123 Bank\n  @common\n"
def exRuleEnv : RuleEnv := ⟨fun n => .ok n, fun _ => true⟩

theorem exLoop_read : readRules exRuleEnv exLoop = .ok (some ⟨[(str "123", ⟨str "Bank", [.ref 0]⟩)], [⟨str "common", [.ref 0]⟩]⟩) := by decide +kernel

/-- **C70 is false** of the code: a set can refer to itself, and the lookup then calls itself forever. -/
theorem C70_terminates_violated : ¬ C70_Statement := by
  intro hst
  obtain ⟨n, o, h⟩ := hst _ _ _ exLoop_read (fun _ _ => true) [] _ (List.mem_singleton.mpr rfl)
  have : ∀ n, ruleFor (fun _ _ => true) [⟨str "common", [.ref 0]⟩] [] n [.ref 0] = .error .loop := by
    intro n
    induction n with
    | zero => rfl
    | succ n ih => rw [ruleFor, ruleLoop]; simp only [List.getElem?_cons_zero, ih]; rfl
  rw [this] at h
  cases h

theorem flat_exists {ri : RuleIndex} (hb : RefsBack ri) (hself : ∀ (i : Nat) (s : RuleSet), ri.sets[i]? = some s → RuleItem.ref i ∉ s.items) :
    ∀ (k : Nat), k ≤ ri.sets.length → ∀ items : List RuleItem, (∀ j, RuleItem.ref j ∈ items → j < k) → ∃ rules, Flat ri.sets items rules := by
  intro k
  induction k using Nat.strongRecOn with
  | ind k ihk =>
    intro hk items
    induction items with
    | nil => intro _; exact ⟨[], .nil⟩
    | cons it items ih =>
      intro hi
      obtain ⟨rs, hrs⟩ := ih (fun j hj => hi j (by simp [hj]))
      cases it with
      | rule r => exact ⟨_, .rule hrs⟩
      | ref i =>
        have hik := hi i (by simp)
        have hs : ri.sets[i]? = some ri.sets[i] := List.getElem?_eq_getElem (by omega)
        obtain ⟨xs, hxs⟩ := ihk i hik (by omega) ri.sets[i].items (fun j hj => by
          have h1 := hb.sets i _ hs j hj
          have h2 : j ≠ i := by rintro rfl; exact hself _ _ hs hj
          omega)
        exact ⟨_, .ref hs hxs hrs⟩

/-- **C70 (partial)** True of every accepted file in which no set refers to itself: the rules can be listed in textual order, and the
lookup returns the first that matches. Missing: sets that refer to themselves, see above. -/
theorem C70_terminates_partial (env : RuleEnv) (text : Str) (ri : RuleIndex) (h : readRules env text = .ok (some ri))
    (hself : ∀ (i : Nat) (s : RuleSet), ri.sets[i]? = some s → RuleItem.ref i ∉ s.items) :
    ∀ e ∈ ri.accounts, ∃ rules, Flat ri.sets e.2.items rules ∧
      ∀ (m : Str → Str → Bool) (payee : Str), ∃ n, ∀ k, n ≤ k → ruleFor m ri.sets payee k e.2.items = .ok (rules.find? (fun r => m r.src payee)) := by
  intro e he
  have hb := C70_refsBack env text ri h
  obtain ⟨rules, hf⟩ := flat_exists hb hself ri.sets.length (Nat.le_refl _) e.2.items (hb.accounts e he)
  exact ⟨rules, hf, fun m payee => C69_first m ri.sets payee _ rules hf⟩

/-- A file with two sets, one using the other. -/
def exFile : Str := str "food\n  Expenses:Food  SHOP|MARKET\ncommon\n  @food\n  Expenses:Gas  SHELL\n  ; car\n123 Assets:Bank\n  --  TRANSFER\n  @common\n"

theorem exFile_read : readRules exRuleEnv exFile = .ok (some
    ⟨[(str "123", ⟨str "Assets:Bank", [.rule ⟨none, str "TRANSFER", []⟩, .ref 1]⟩)],
     [⟨str "food", [.rule ⟨some (str "Expenses:Food"), str "SHOP|MARKET", []⟩]⟩,
      ⟨str "common", [.ref 0, .rule ⟨some (str "Expenses:Gas"), str "SHELL", [str "car"]⟩]⟩]⟩) := by decide +kernel

/-! ## C75: The pattern of a rule -/

/-- Greedy repetition of a class, backing up to the longest prefix after which the rest matches. -/
theorem star_backup {p : Char → Bool} {k : ReK} {c : Caps} {res} {a b : Str} (hp : ∀ x ∈ a, p x = true) (hk : k b c = some res)
    (hlong : ∀ b1 b2, b1 ≠ [] → b = b1 ++ b2 → k b2 c = none) : (Re.star (.cls p)).run k (a ++ b) c = some res := by
  have dead : ∀ (n : Nat) (s : Str), (∀ s1 s2, s = s1 ++ s2 → k s2 c = none) → starLoop (Re.cls p).run k n s c = none := by
    intro n
    induction n with
    | zero => intro s h; exact h [] s rfl
    | succ n ih =>
      intro s h
      unfold starLoop
      have h1 : (Re.cls p).run (fun s' c' => if s'.length < s.length then starLoop (Re.cls p).run k n s' c' else none) s c = none := by
        cases s with
        | nil => rfl
        | cons x s =>
          simp only [Re.run]
          split
          · rw [if_pos (by simp)]
            exact ih s (fun s1 s2 e => h (x :: s1) s2 (by rw [e]; rfl))
          · rfl
      rw [h1]
      exact h [] s rfl
  have stop : ∀ n : Nat, starLoop (Re.cls p).run k n b c = some res := by
    intro n
    cases n with
    | zero => exact hk
    | succ n =>
      unfold starLoop
      have h1 : (Re.cls p).run (fun s' c' => if s'.length < b.length then starLoop (Re.cls p).run k n s' c' else none) b c = none := by
        cases hb : b with
        | nil => rfl
        | cons x s =>
          simp only [Re.run]
          split
          · rw [if_pos (by simp)]
            exact dead n s (fun s1 s2 e => hlong (x :: s1) s2 (by simp) (by rw [hb, e]; rfl))
          · rfl
      rw [h1]
      exact hk
  have go : ∀ (n : Nat) (a : Str), a.length ≤ n → (∀ x ∈ a, p x = true) → starLoop (Re.cls p).run k n (a ++ b) c = some res := by
    intro n
    induction n with
    | zero =>
      intro a ha _
      have : a = [] := List.length_eq_zero_iff.mp (by omega)
      subst this
      exact hk
    | succ n ih =>
      intro a ha hpa
      cases a with
      | nil => exact stop (n + 1)
      | cons x a =>
        unfold starLoop
        have : (Re.cls p).run (fun s' c' => if s'.length < (x :: a ++ b).length then starLoop (Re.cls p).run k n s' c' else none) (x :: a ++ b) c = some res := by
          simp only [List.cons_append, Re.run]
          rw [if_pos (hpa x (by simp)), if_pos (by simp)]
          exact ih a (by simpa using ha) (fun y hy => hpa y (by simp [hy]))
        rw [this]; rfl
  exact go (a ++ b).length a (by simp) hp

/-- `\S.*\S` takes everything up to the last character that is not white space. -/
theorem trimmed_run {x y : Char} {mid tail : Str} (hx : isWs x = false) (hy : isWs y = false) (hm : ∀ z ∈ mid, z ≠ '\n') (ht : ∀ z ∈ tail, isWs z = true)
    (c : Caps) : RunsTo (.cat [.notWs, .star .any, .notWs]) (x :: (mid ++ [y])) tail c c := by
  intro k res hk
  show (Re.seq .notWs (Re.seq (.star .any) .notWs)).run k (x :: (mid ++ [y]) ++ tail) c = some res
  rw [run_seq]
  simp only [List.cons_append, Re.notWs, Re.run, hx]
  rw [if_pos (by decide)]
  have e : mid ++ [y] ++ tail = mid ++ ([y] ++ tail) := by simp
  rw [e]
  refine star_backup (p := fun c => decide (c ≠ '\n')) (fun z hz => by simpa using hm z hz) ?_ ?_
  · simp [hy, hk]
  · intro b1 b2 hb1 e2
    cases b2 with
    | nil => rfl
    | cons z b2 =>
      have hz : z ∈ tail := by
        cases b1 with
        | nil => exact absurd rfl hb1
        | cons w b1 =>
          simp only [List.cons_append, List.cons.injEq, List.nil_append] at e2
          rw [e2.2]; simp
      simp [ht z hz]

/-- A text that starts and ends with characters other than white space and has no line feed. -/
def Trimmed (p : Str) : Prop := ∃ x y mid, p = x :: (mid ++ [y]) ∧ isWs x = false ∧ isWs y = false ∧ ∀ z ∈ mid, z ≠ '\n'

/-- Characters of an account pattern. -/
def AccountPattern (a : Str) : Prop := a ≠ [] ∧ ∀ x ∈ a, isPatternChar x = true

theorem patternChar_notWs {x : Char} (h : isPatternChar x = true) : isWs x = false := by
  unfold isPatternChar at h
  simp only [Bool.or_eq_true, decide_eq_true_eq, List.mem_cons, List.not_mem_nil, or_false] at h
  rcases h with h | h
  · unfold isWord at h
    simp only [Bool.or_eq_true, decide_eq_true_eq] at h
    rcases h with (h | h) | rfl
    · exact (alpha_props h).1
    · unfold isDigit at h
      unfold isWs
      simp only [Bool.and_eq_true, decide_eq_true_eq] at h
      simp only [Bool.or_eq_false_iff, decide_eq_false_iff_not]
      refine ⟨⟨⟨⟨?_, ?_⟩, ?_⟩, ?_⟩, ?_⟩ <;> rintro rfl <;> revert h <;> decide
    · decide
  · rcases h with rfl | rfl | rfl | rfl | rfl <;> decide

theorem ws_noPattern {x : Char} (h : isWs x = true) : isPatternChar x = false := by
  by_contra hc
  simp only [Bool.not_eq_false] at hc
  rw [patternChar_notWs hc] at h
  cases h

/-- **C75 (partial)** A line of blanks, an account, blanks and a pattern of at least two characters is read as the rule of exactly that
account and that pattern; blanks at the end do not count. Missing: patterns of one character, see below. -/
theorem C75_pattern_partial (env : RuleEnv) (sets : List RuleSet) (items : List RuleItem) (ind acct sp pat tail : Str)
    (h1 : ind ≠ []) (h2 : ∀ x ∈ ind, isWs x = true) (h3 : AccountPattern acct) (h4 : sp ≠ []) (h5 : ∀ x ∈ sp, isWs x = true)
    (h6 : Trimmed pat) (h7 : ∀ x ∈ tail, isWs x = true) :
    ∃ m, bodyRe.matchAt (ind ++ acct ++ sp ++ pat ++ tail) = some m ∧ m.1.get (str "1") = acct ∧ m.1.get (str "3") = pat := by
  obtain ⟨x, y, mid, rfl, hx, hy, hm⟩ := h6
  have hpat : ∀ c, RunsTo (.opt (.seq (.plus .ws) (.grp (str "3") (.cat [.notWs, .star .any, .notWs])))) (sp ++ x :: (mid ++ [y])) tail c
      ((str "3", x :: (mid ++ [y])) :: c) := by
    intro c
    refine RunsTo.opt (RunsTo.seq (RunsTo.plus h4 h5 ?_ c) (RunsTo.grp (trimmed_run hx hy hm h7 c)))
    intro z t e
    simp only [List.cons_append, List.cons.injEq] at e
    rw [← e.1]; exact hx
  have hacct : ∀ c, RunsTo (patternRe (str "1")) acct ((sp ++ x :: (mid ++ [y])) ++ tail) c ((str "1", acct) :: c) := by
    intro c
    refine RunsTo.grp (RunsTo.plus h3.1 h3.2 ?_ c)
    intro z t e
    cases sp with
    | nil => exact absurd rfl h4
    | cons w sp =>
      simp only [List.cons_append, List.cons.injEq] at e
      rw [← e.1]
      exact ws_noPattern (h5 w (by simp))
  have hind : RunsTo (.plus .ws) ind ((acct ++ (sp ++ x :: (mid ++ [y]))) ++ tail) [] [] := by
    refine RunsTo.plus h1 h2 ?_ []
    intro z t e
    obtain ⟨hne, ha⟩ := h3
    cases acct with
    | nil => exact absurd rfl hne
    | cons w acct =>
      simp only [List.cons_append, List.cons.injEq] at e
      rw [← e.1]
      exact patternChar_notWs (ha w (by simp))
  have all : RunsTo bodyRe (ind ++ (acct ++ (sp ++ x :: (mid ++ [y])))) tail [] _ :=
    RunsTo.altL (RunsTo.seq hind (RunsTo.seq (hacct []) (hpat _)))
  refine ⟨_, by have := all.matchAt; rw [← this]; congr 1; simp, ?_, ?_⟩
  · simp only [get_cons_ne (show str "3" ≠ str "1" by decide), get_cons_eq]
  · simp only [get_cons_eq]

/-- … and therefore becomes that rule. -/
theorem C75_rule_partial (env : RuleEnv) (sets : List RuleSet) (items : List RuleItem) (ind acct sp pat tail a : Str) (rest : List Str)
    (h1 : ind ≠ []) (h2 : ∀ x ∈ ind, isWs x = true) (h3 : AccountPattern acct) (h4 : sp ≠ []) (h5 : ∀ x ∈ sp, isWs x = true)
    (h6 : Trimmed pat) (h7 : ∀ x ∈ tail, isWs x = true) (h8 : acct ≠ str "--") (h9 : env.find acct = .ok a) (h10 : env.compiles pat = true) :
    bodyLoop env sets items ((ind ++ acct ++ sp ++ pat ++ tail) :: rest) = bodyLoop env sets (items ++ [.rule ⟨some a, pat, []⟩]) rest := by
  obtain ⟨m, hm, g1, g3⟩ := C75_pattern_partial env sets items ind acct sp pat tail h1 h2 h3 h4 h5 h6 h7
  rw [bodyLoop, hm]
  simp only []
  unfold bodyLine
  rw [g1, g3, if_pos h3.1, if_neg h8, h9]
  simp only [Except.bind]
  rw [if_pos h10]

theorem addNote_last (items : List RuleItem) (r : Rule) (n : Str) : addNote (items ++ [.rule r]) n = items ++ [.rule { r with notes := r.notes ++ [n] }] := by
  induction items with
  | nil => rfl
  | cons x items ih =>
    cases items with
    | nil => cases x <;> rfl
    | cons y items => rw [List.cons_append, List.cons_append, addNote]; simp only [List.cons_append] at ih; rw [ih]; rfl

/-- A line of blanks, a semicolon, blanks and a text is a note. -/
theorem note_match (ind sp text : Str) (h1 : ind ≠ []) (h2 : ∀ x ∈ ind, isWs x = true) (h3 : sp ≠ []) (h4 : ∀ x ∈ sp, isWs x = true)
    (h5 : ∀ x ∈ text, x ≠ '\n') (h6 : ∀ x t, text = x :: t → isWs x = false) :
    ∃ m, bodyRe.matchAt (ind ++ ';' :: (sp ++ text)) = some m ∧ m.1.get (str "1") = [] ∧ m.1.get (str "4") = [] ∧ m.1.get (str "5") = text := by
  have hsemi : ∀ (x : Char) (t : Str), ';' :: (sp ++ text) = x :: t → isWs x = false := by
    intro x t e; rw [List.cons.injEq] at e; rw [← e.1]; decide
  have n1 : NoMatch (.cat [.plus .ws, patternRe (str "1"), .opt (.seq (.plus .ws) (.grp (str "3") (.cat [.notWs, .star .any, .notWs])))]) (ind ++ ';' :: (sp ++ text)) := by
    refine NoMatch.plusThenCls (q := isPatternChar) hsemi (fun x hx => ws_noPattern (h2 x hx)) ?_ ?_
    · intro x t e; rw [List.cons.injEq] at e; rw [← e.1]; decide
    · intro s hs; exact NoMatch.seqL (NoMatch.grp (NoMatch.plus hs))
  have n2 : NoMatch (.cat [.plus .ws, .ch '@', .grp (str "4") (.plus .word)]) (ind ++ ';' :: (sp ++ text)) := by
    refine NoMatch.plusThenCls (q := fun c => decide (c = '@')) hsemi ?_ ?_ ?_
    · intro x hx
      simp only [decide_eq_false_iff_not]
      rintro rfl
      exact absurd (h2 _ hx) (by decide)
    · intro x t e; rw [List.cons.injEq] at e; rw [← e.1]; decide
    · intro s hs
      exact NoMatch.seqL (NoMatch.ch (fun x t e => by simpa using hs x t e))
  have r3 : RunsTo (.cat [.plus .ws, .ch ';', .plus .ws, .grp (str "5") (.star .any)]) (ind ++ ([';'] ++ (sp ++ text))) [] [] [(str "5", text)] := by
    refine RunsTo.seq (RunsTo.plus h1 h2 ?_ []) (RunsTo.seq (RunsTo.ch ';' _ []) (RunsTo.seq (RunsTo.plus h3 h4 ?_ []) (RunsTo.grp (RunsTo.star ?_ ?_ []))))
    · intro x t e; exact hsemi x t (by simpa using e)
    · intro x t e; exact h6 x t (by simpa using e)
    · intro x hx; simpa using h5 x hx
    · intro x t e; cases e
  have all : RunsTo bodyRe (ind ++ ([';'] ++ (sp ++ text))) [] [] [(str "5", text)] := by
    refine RunsTo.altR (by simpa using n1) (RunsTo.altR (by simpa using n2) r3)
  refine ⟨_, by have := all.matchAt; rw [List.append_nil] at this; exact this, ?_, ?_, ?_⟩ <;> simp [Caps.get, str]

/-- **C75** (notes) The note lines that follow a rule become its notes, in the order in which they are written. -/
theorem C75_notes (env : RuleEnv) (sets : List RuleSet) (items : List RuleItem) (r : Rule) (notes : List (Str × Str × Str)) (rest : List Str)
    (h : ∀ n ∈ notes, n.1 ≠ [] ∧ (∀ x ∈ n.1, isWs x = true) ∧ n.2.1 ≠ [] ∧ (∀ x ∈ n.2.1, isWs x = true) ∧ (∀ x ∈ n.2.2, x ≠ '\n') ∧
      ∀ x t, n.2.2 = x :: t → isWs x = false) :
    bodyLoop env sets (items ++ [.rule r]) (notes.map (fun n => n.1 ++ ';' :: (n.2.1 ++ n.2.2)) ++ rest) =
      bodyLoop env sets (items ++ [.rule { r with notes := r.notes ++ notes.map (·.2.2) }]) rest := by
  induction notes generalizing r with
  | nil => simp
  | cons n notes ih =>
    obtain ⟨a, b, c, d, e, f⟩ := h n (by simp)
    obtain ⟨m, hm, g1, g4, g5⟩ := note_match n.1 n.2.1 n.2.2 a b c d e f
    rw [List.map_cons, List.cons_append, bodyLoop, hm]
    simp only []
    unfold bodyLine
    rw [g1, g4, g5]
    simp only [ne_eq, not_true, if_false, Except.bind]
    rw [addNote_last, ih _ (fun n hn => h n (by simp [hn]))]
    simp

/-- Non-vacuity: a rule with two notes. -/
example : bodyLoop exRuleEnv [] [] [str "  Expenses  SHOP", str "  ; first", str "  ; second #tag"] =
    .ok ([.rule ⟨some (str "Expenses"), str "SHOP", [str "first", str "second #tag"]⟩], []) := by decide +kernel

/-- Full statement of C75: the rule read from such a line has the pattern that is written on it. -/
def C75_Statement : Prop := ∀ (env : RuleEnv) (ind acct sp pat : Str) (a : Str),
  ind ≠ [] → (∀ x ∈ ind, isWs x = true) → AccountPattern acct → sp ≠ [] → (∀ x ∈ sp, isWs x = true) →
  pat ≠ [] → (∀ x ∈ pat, isWs x = false) → acct ≠ str "--" → env.find acct = .ok a → env.compiles pat = true → env.compiles [] = true →
  bodyLoop env [] [] [ind ++ acct ++ sp ++ pat] = .ok ([.rule ⟨some a, pat, []⟩], [])

/-- **C75 is false** of the code: the pattern must have two characters; one alone is ignored and the rule has the empty pattern, which
matches every payee. -/
theorem C75_pattern_violated : ¬ C75_Statement := by
  intro h
  have := h exRuleEnv (str "  ") (str "Expenses") (str "  ") (str "7") (str "Expenses") (by decide) (by decide)
    ⟨by decide, by decide⟩ (by decide) (by decide) (by decide) (by decide) (by decide) rfl rfl rfl
  exact absurd this (by decide +kernel)

example : Trimmed (str "COSTCO GAS|SHELL") := ⟨'C', 'L', str "OSTCO GAS|SHEL", rfl, by decide, by decide, by decide⟩
example : AccountPattern (str "Expenses:Auto:Gas") := ⟨by decide, by decide⟩

/-! ## C76: The lines of a section -/

/-- Full statement of C76: an empty line in a section changes nothing. -/
def C76_Statement : Prop := ∀ (env : RuleEnv) (a b : List Str) (n : Nat) (ri : RuleIndex),
  scanRules env n ⟨[], []⟩ (a ++ b) = .ok ri → n = (a ++ b).length + 1 → scanRules env n ⟨[], []⟩ (a ++ [] :: b) = .ok ri

/-- **C76 is false** of the code: after an empty line the next line is trimmed and read as a header, so a rule below it becomes the name
of a rule set and the rules after it become rules of that set. -/
theorem C76_blank_violated : ¬ C76_Statement := by
  intro h
  have h0 : scanRules exRuleEnv 4 ⟨[], []⟩ ([str "123 Bank"] ++ [str "  Food  SHOP", str "  Gas  SHELL"]) =
      .ok ⟨[(str "123", ⟨str "Bank", [.rule ⟨some (str "Food"), str "SHOP", []⟩, .rule ⟨some (str "Gas"), str "SHELL", []⟩]⟩)], []⟩ := by decide +kernel
  exact absurd (h exRuleEnv [str "123 Bank"] [str "  Food  SHOP", str "  Gas  SHELL"] 4 _ h0 rfl) (by decide +kernel)

theorem bodyLoop_append {env : RuleEnv} {sets : List RuleSet} {bs tail : List Str} (hb : ∀ l ∈ bs, bodyRe.matchAt l ≠ none) (items : List RuleItem) :
    bodyLoop env sets items (bs ++ tail) = (bodyLoop env sets items bs).bind fun r => bodyLoop env sets r.1 tail := by
  induction bs generalizing items with
  | nil => rfl
  | cons l bs ih =>
    rw [List.cons_append, bodyLoop, bodyLoop]
    cases hm : bodyRe.matchAt l with
    | none => exact absurd hm (hb l (by simp))
    | some m =>
      simp only []
      cases bodyLine env sets items m.1 with
      | error e => rfl
      | ok items' => simp only [Except.bind]; exact ih (fun x hx => hb x (by simp [hx])) items'

theorem bodyLoop_all {env : RuleEnv} {sets : List RuleSet} {bs : List Str} (hb : ∀ l ∈ bs, bodyRe.matchAt l ≠ none) {items : List RuleItem}
    {r : List RuleItem × List Str} (h : bodyLoop env sets items bs = .ok r) : r.2 = [] := by
  induction bs generalizing items with
  | nil => cases h; rfl
  | cons l bs ih =>
    rw [bodyLoop] at h
    cases hm : bodyRe.matchAt l with
    | none => exact absurd hm (hb l (by simp))
    | some m =>
      rw [hm] at h
      obtain ⟨items', _, h⟩ := bind_ok.mp h
      exact ih (fun x hx => hb x (by simp [hx])) h

/-- **C76 (partial)** An empty line after a section changes nothing when the next line is not indented, ends without blanks and is not a
line of a section. Missing: an empty line within a section, see above. -/
theorem C76_blank_partial (env : RuleEnv) (n : Nat) (ri : RuleIndex) (hd : Str) (bs : List Str) (l : Str) (rest : List Str)
    (h1 : headerRe.matchAt hd ≠ none) (h2 : ∀ b ∈ bs, bodyRe.matchAt b ≠ none) (h3 : bodyRe.matchAt l = none) (h4 : trimSpace l = l) :
    scanRules env (n + 2) ri (hd :: (bs ++ [] :: l :: rest)) = scanRules env (n + 1) ri (hd :: (bs ++ l :: rest)) := by
  have blank : bodyRe.matchAt [] = none := by decide
  have blankH : headerRe.matchAt [] = none := by decide
  have body : ∀ sets, bodyLoop env sets [] (bs ++ [] :: l :: rest) = (bodyLoop env sets [] (bs ++ l :: rest)).bind fun r => .ok (r.1, [] :: l :: rest) := by
    intro sets
    rw [bodyLoop_append h2, bodyLoop_append h2]
    cases bodyLoop env sets [] bs with
    | error e => rfl
    | ok r => simp only [Except.bind, bodyLoop, blank, h3]
  have rest' : ∀ sets r, bodyLoop env sets [] (bs ++ l :: rest) = .ok r → r.2 = l :: rest := by
    intro sets r hr
    rw [bodyLoop_append h2] at hr
    obtain ⟨r', _, hr⟩ := bind_ok.mp hr
    rw [bodyLoop, h3] at hr
    cases hr; rfl
  have skip : ∀ ri, scanRules env (n + 1) ri ([] :: l :: rest) = scanRules env n ri (l :: rest) := by
    intro ri
    rw [scanRules, blankH]
    simp only [h4]
  show scanRules env ((n + 1) + 1) ri _ = _
  unfold scanRules
  cases hm : headerRe.matchAt hd with
  | none => exact absurd hm h1
  | some m =>
    simp only [body]
    split
    · cases env.find (m.1.get (str "2")) with
      | error e => rfl
      | ok a =>
        simp only [Except.bind]
        cases hb : bodyLoop env ri.sets [] (bs ++ l :: rest) with
        | error e => rfl
        | ok r => simp only [skip, rest' _ _ hb]
    · cases hb : bodyLoop env (ri.sets ++ [⟨m.1.get (str "3"), []⟩]) [] (bs ++ l :: rest) with
      | error e => rfl
      | ok r => simp only [Except.bind, skip, rest' _ _ hb]

example : bodyRe.matchAt (str "123 Bank") = none ∧ trimSpace (str "123 Bank") = str "123 Bank" ∧ headerRe.matchAt (str "common") ≠ none ∧
    bodyRe.matchAt (str "  Food  SHOP") ≠ none := by
  refine ⟨by decide +kernel, by decide +kernel, ?_, ?_⟩
  · have : (headerRe.matchAt (str "common")).isSome = true := by decide +kernel
    intro h; rw [h] at this; cases this
  · have : (bodyRe.matchAt (str "  Food  SHOP")).isSome = true := by decide +kernel
    intro h; rw [h] at this; cases this

/-! ## C78: Dumping the rules -/

/-- Full statement of C78: the rules of every accepted file can be written, and are read back. -/
def C78_Statement : Prop := ∀ (env : RuleEnv) (text : Str) (ri : RuleIndex), readRules env text = .ok (some ri) → (∀ n a, env.find n = .ok a → env.find a = .ok a) →
  ∀ e ∈ ri.accounts, ∃ lines, writeRules ri.sets e.2.items = .ok lines ∧ bodyLoop env ri.sets [] lines = .ok (e.2.items, [])

/-- **C78 is false** of the code: writing a rule that drops transactions panics. -/
theorem C78_dump_violated : ¬ C78_Statement := by
  intro hst
  obtain ⟨lines, h, _⟩ := hst _ _ _ exFile_read (by intro n a h; cases h; rfl) _ (List.mem_singleton.mpr rfl)
  have : writeRules [⟨str "food", [.rule ⟨some (str "Expenses:Food"), str "SHOP|MARKET", []⟩]⟩,
      ⟨str "common", [.ref 0, .rule ⟨some (str "Expenses:Gas"), str "SHELL", [str "car"]⟩]⟩]
      [.rule ⟨none, str "TRANSFER", []⟩, .ref 1] = .error .panic := rfl
  rw [this] at h
  cases h

/-- An item that is written and read back: a rule with account and trimmed or empty pattern and no notes, or a reference by a name that
leads back to the same set. -/
def Writable (env : RuleEnv) (sets : List RuleSet) : RuleItem → Prop
  | .rule r => ∃ a, r.account = some a ∧ AccountPattern a ∧ a ≠ str "--" ∧ env.find a = .ok a ∧ env.compiles r.src = true ∧ r.notes = [] ∧
      (r.src = [] ∨ Trimmed r.src)
  | .ref i => ∃ s, sets[i]? = some s ∧ s.name ≠ [] ∧ (∀ x ∈ s.name, isWord x = true) ∧ lastSet sets s.name = some i

theorem blanks_isWs (n : Nat) : ∀ x ∈ rep n ' ', isWs x = true := by
  intro x hx
  rw [rep, List.mem_replicate] at hx
  rw [hx.2]; decide

theorem write_rule_read {env : RuleEnv} {sets : List RuleSet} {it : RuleItem} (h : Writable env sets it) (w : Nat) :
    ∃ line, it.write sets w = .ok line ∧
      ∀ items rest, bodyLoop env sets items (line :: rest) = bodyLoop env sets (items ++ [it]) rest := by
  cases it with
  | rule r =>
    obtain ⟨acct, src, notes⟩ := r
    obtain ⟨a, ha, hp, hd, hf, hc, hn, hs⟩ := h
    simp only at ha hn hs hc
    subst ha; subst hn
    refine ⟨_, rfl, ?_⟩
    intro items rest
    simp only
    rcases hs with rfl | hs
    · -- no pattern
      have e : str "  " ++ padRight w a ++ str " " ++ [] = str "  " ++ (a ++ (rep (w - a.length) ' ' ++ [' '])) := by
        simp [padRight, str, List.append_assoc]
      have htail : ∀ x ∈ rep (w - a.length) ' ' ++ [' '], isWs x = true := by
        intro x hx
        rcases List.mem_append.mp hx with hx | hx
        · exact blanks_isWs _ x hx
        · rw [List.mem_singleton] at hx; subst hx; decide
      have nopat : NoMatch (.seq (.plus .ws) (.grp (str "3") (.cat [.notWs, .star .any, .notWs]))) (rep (w - a.length) ' ' ++ [' ']) := by
        refine NoMatch.seqR ?_
        intro s1 s2 c c' e _
        refine NoMatch.grp (NoMatch.seqL (NoMatch.cls ?_))
        intro x t ex
        have := htail x (by rw [e, ex]; simp)
        simp [this]
      have run : RunsTo bodyRe (str "  " ++ (a ++ [])) (rep (w - a.length) ' ' ++ [' ']) [] [(str "1", a)] := by
        refine RunsTo.altL (RunsTo.seq (RunsTo.plus (by decide) (by decide) ?_ []) (RunsTo.seq (RunsTo.grp (RunsTo.plus hp.1 hp.2 ?_ [])) (RunsTo.optNone nopat)))
        · intro z t e
          obtain ⟨hne, ha⟩ := hp
          cases a with
          | nil => exact absurd rfl hne
          | cons y a =>
            simp only [List.cons_append, List.cons.injEq] at e
            rw [← e.1]; exact patternChar_notWs (ha y (by simp))
        · intro z t e
          refine ws_noPattern (htail z ?_)
          rw [List.nil_append] at e
          rw [e]; simp
      rw [e, bodyLoop]
      have hm := run.matchAt
      simp only [List.append_nil, List.append_assoc] at hm
      rw [hm]
      simp only []
      unfold bodyLine
      have g1 : Caps.get [(str "1", a)] (str "1") = a := get_cons_eq
      have g3 : Caps.get [(str "1", a)] (str "3") = [] := by simp [Caps.get, str]
      rw [g1, g3, if_pos hp.1, if_neg hd, hf]
      simp only [Except.bind]
      rw [if_pos hc]
    · have e : str "  " ++ padRight w a ++ str " " ++ src = str "  " ++ a ++ (rep (w - a.length) ' ' ++ str " ") ++ src ++ [] := by
        simp [padRight, List.append_assoc]
      rw [e]
      refine C75_rule_partial env sets items (str "  ") a (rep (w - a.length) ' ' ++ str " ") src [] a rest (by decide) (by decide) hp
        (by simp [str]) ?_ hs (by simp) hd hf hc
      intro x hx
      rcases List.mem_append.mp hx with hx | hx
      · exact blanks_isWs _ x hx
      · rw [show str " " = [' '] from rfl, List.mem_singleton] at hx
        subst hx; decide
  | ref i =>
    obtain ⟨s, hs, hne, hw, hl⟩ := h
    refine ⟨str "  @" ++ padRight w s.name, by simp only [RuleItem.write, RuleItem.nameOf, hs]; rfl, ?_⟩
    intro items rest
    have no : NoMatch (.cat [.plus .ws, patternRe (str "1"), .opt (.seq (.plus .ws) (.grp (str "3") (.cat [.notWs, .star .any, .notWs])))])
        (str "  @" ++ padRight w s.name) := by
      have e : str "  @" ++ padRight w s.name = str "  " ++ '@' :: padRight w s.name := rfl
      rw [e]
      refine NoMatch.plusThen (p := isWs) (fun x t ex => by cases ex; decide) ?_
      intro w1 w2 ew
      refine NoMatch.seqL (NoMatch.grp (NoMatch.plus ?_))
      intro x t ex
      have hx : x ∈ w2 ++ ['@'] := by
        cases w2 with
        | nil => cases ex; simp
        | cons y w2 => cases ex; simp
      rcases List.mem_append.mp hx with hx | hx
      · have : x ∈ str "  " := by rw [ew]; simp [hx]
        rw [show str "  " = [' ', ' '] from rfl] at this
        simp only [List.mem_cons, List.not_mem_nil, or_false, or_self] at this
        subst this; decide
      · rw [List.mem_singleton] at hx; subst hx; decide
    have run : RunsTo bodyRe (str "  " ++ ([ '@' ] ++ s.name)) (rep (w - s.name.length) ' ') [] [(str "4", s.name)] := by
      refine RunsTo.altR ?_ (RunsTo.altL (RunsTo.seq (RunsTo.plus (by decide) (by decide) ?_ []) (RunsTo.seq (RunsTo.ch '@' _ _)
        (RunsTo.grp (RunsTo.plus hne hw ?_ [])))))
      · have e : str "  " ++ ([ '@' ] ++ s.name) ++ rep (w - s.name.length) ' ' = str "  @" ++ padRight w s.name := by
          simp [str, padRight]
        rw [e]; exact no
      · intro z t e; cases e; decide
      · intro z t e
        have : z ∈ rep (w - s.name.length) ' ' := by rw [e]; simp
        rw [rep, List.mem_replicate] at this
        rw [this.2]; decide
    have hm := run.matchAt
    have e : str "  " ++ ([ '@' ] ++ s.name) ++ rep (w - s.name.length) ' ' = str "  @" ++ padRight w s.name := by
      simp [str, padRight]
    rw [e] at hm
    rw [bodyLoop, hm]
    simp only []
    unfold bodyLine
    have g1 : Caps.get [(str "4", s.name)] (str "1") = [] := by simp [Caps.get, str]
    have g4 : Caps.get [(str "4", s.name)] (str "4") = s.name := get_cons_eq
    rw [g1, g4, if_neg (by simp), if_pos hne, hl]
    rfl

/-- **C78 (partial)** The lines written for a section of rules that have an account, a pattern the file format can hold and no notes, and
of references that lead back to their set, are read back as that section. Missing: rules that drop transactions (writing them panics)
and notes (they are not written). -/
theorem C78_dump_partial (env : RuleEnv) (sets : List RuleSet) (items : List RuleItem) (h : ∀ it ∈ items, Writable env sets it) :
    ∃ lines, writeRules sets items = .ok lines ∧ lines.length = items.length ∧
      ∀ rest, bodyLoop env sets [] (lines ++ rest) = bodyLoop env sets items rest := by
  have names : ∃ ns, items.mapM (RuleItem.nameOf sets) = .ok ns := by
    apply mapM_total
    intro it hit
    have := h it hit
    cases it with
    | rule r => obtain ⟨a, ha, _⟩ := this; exact ⟨a, by simp only [RuleItem.nameOf, ha]⟩
    | ref i => obtain ⟨s, hs, _⟩ := this; exact ⟨s.name, by simp only [RuleItem.nameOf, hs]⟩
  obtain ⟨ns, hns⟩ := names
  unfold writeRules
  rw [hns]
  simp only [Except.bind]
  generalize ns.foldl (fun m n => max m n.length) 0 = w
  have main : ∀ (items pre : List RuleItem), (∀ it ∈ items, Writable env sets it) → ∃ lines, items.mapM (RuleItem.write sets w) = .ok lines ∧
      lines.length = items.length ∧ ∀ rest, bodyLoop env sets pre (lines ++ rest) = bodyLoop env sets (pre ++ items) rest := by
    intro items
    induction items with
    | nil => intro pre _; exact ⟨[], rfl, rfl, fun rest => by simp⟩
    | cons it items ih =>
      intro pre h
      obtain ⟨line, h1, h2⟩ := write_rule_read (h it (by simp)) w
      obtain ⟨lines, h3, h4, h5⟩ := ih (pre ++ [it]) (fun x hx => h x (by simp [hx]))
      refine ⟨line :: lines, ?_, by simp [h4], ?_⟩
      · rw [List.mapM_cons, h1, h3]; rfl
      · intro rest
        rw [List.cons_append, h2, h5]
        simp
  obtain ⟨lines, h1, h2, h3⟩ := main items [] h
  exact ⟨lines, h1, h2, h3⟩

example : ∀ it ∈ [RuleItem.rule ⟨some (str "Expenses:Auto"), str "SHELL|PETRO", []⟩, .ref 0, .rule ⟨some (str "Misc"), [], []⟩],
    Writable exRuleEnv [⟨str "common", []⟩] it := by
  simp only [List.mem_cons, List.not_mem_nil, or_false, forall_eq_or_imp, forall_eq]
  refine ⟨⟨_, rfl, ⟨by decide, by decide⟩, by decide, rfl, rfl, rfl, .inr ⟨'S', 'O', str "HELL|PETR", rfl, by decide, by decide, by decide⟩⟩,
    ⟨_, rfl, by decide, by decide, by decide⟩, ⟨_, rfl, ⟨by decide, by decide⟩, by decide, rfl, rfl, rfl, .inl rfl⟩⟩

end Verif
