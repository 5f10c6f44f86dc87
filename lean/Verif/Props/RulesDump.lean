import Verif.Model.RulesDump
import Verif.Props.Rules
import Verif.Props.RoundTrip
import Verif.Lemmas.Load
/-
C78 for whole rule files.
-/
namespace Verif

/-- An index that the format of rule files can hold: names and ids are words, accounts are written with the characters of patterns and are
found by their own names, and the items of every section can be read where they are written: those of a set when the sets before it and
its own name are known, those of accounts when all sets are. -/
structure Dumpable (env : RuleEnv) (ri : RuleIndex) : Prop where
  sets : ∀ (i : Nat) (s : RuleSet), ri.sets[i]? = some s → s.name ≠ [] ∧ (∀ x ∈ s.name, isWord x = true) ∧
    ∀ it ∈ s.items, Writable env (ri.sets.take i ++ [⟨s.name, []⟩]) it
  accounts : ∀ e ∈ ri.accounts, e.1 ≠ [] ∧ (∀ x ∈ e.1, isWord x = true) ∧ AccountPattern e.2.account ∧ env.find e.2.account = .ok e.2.account ∧
    ∀ it ∈ e.2.items, Writable env ri.sets it

/-! ### Headers -/

theorem word_notWs {x : Char} (h : isWord x = true) : isWs x = false := by
  refine patternChar_notWs ?_
  unfold isPatternChar
  rw [h]; rfl

/-- A line beginning with a word character is not a line of a section. -/
theorem notBody {x : Char} {t : Str} (hx : isWord x = true) : bodyRe.matchAt (x :: t) = none := by
  have no : ∀ r : Re, NoMatch (.seq (.plus .ws) r) (x :: t) := by
    intro r
    refine NoMatch.seqL (NoMatch.plus (p := isWs) ?_)
    intro y u e
    cases e
    exact word_notWs hx
  exact (NoMatch.alt (no _) (NoMatch.alt (no _) (no _))).run reDone []

theorem setHead_match {name : Str} (hne : name ≠ []) (hw : ∀ x ∈ name, isWord x = true) : headerRe.matchAt name = some ([(str "3", name)], []) := by
  have run : RunsTo headerRe name [] [] [(str "3", name)] := by
    refine RunsTo.altR ?_ (RunsTo.grp (RunsTo.plus hne hw (by intro y t e; cases e) []))
    refine NoMatch.seqR ?_
    intro s1 s2 c c' e _
    refine NoMatch.seqL (NoMatch.plus (p := isWs) ?_)
    intro y u ey
    refine word_notWs (hw y ?_)
    rw [List.append_nil] at e
    rw [e, ey]; simp
  have := run.matchAt
  rwa [List.append_nil] at this

theorem dumpedHead_match {w : Nat} {e : Str × AccountRules} (hne : e.1 ≠ []) (hw : ∀ x ∈ e.1, isWord x = true) (ha : AccountPattern e.2.account) :
    headerRe.matchAt (accountHead w e) = some ([(str "2", e.2.account), (str "1", e.1)], []) := by
  obtain ⟨id, a, items⟩ := e
  simp only at hne hw ha
  have eq : accountHead w (id, ⟨a, items⟩) = id ++ ((rep (w - id.length) ' ' ++ [' ']) ++ a) := by
    simp [accountHead, padRight, str, List.append_assoc]
  have hsp : ∀ x ∈ rep (w - id.length) ' ' ++ [' '], isWs x = true := by
    intro x hx
    rcases List.mem_append.mp hx with hx | hx
    · exact blanks_isWs _ x hx
    · rw [List.mem_singleton] at hx; subst hx; decide
  have run : RunsTo headerRe (id ++ ((rep (w - id.length) ' ' ++ [' ']) ++ a)) [] [] [(str "2", a), (str "1", id)] := by
    refine RunsTo.altL (RunsTo.seq (RunsTo.grp (RunsTo.plus hne hw ?_ [])) (RunsTo.seq (RunsTo.plus (p := isWs) (by simp) hsp ?_ _)
      (RunsTo.grp (RunsTo.plus ha.1 ha.2 (by intro y t e; cases e) _))))
    · intro z t ez
      have hz : z ∈ rep (w - id.length) ' ' ++ [' '] := by
        cases hr : rep (w - id.length) ' ' ++ [' '] with
        | nil => simp at hr
        | cons y u => rw [hr] at ez; cases ez; simp
      have := hsp z hz
      rw [Bool.eq_false_iff]
      intro h
      rw [word_notWs h] at this
      cases this
    · intro z t ez
      obtain ⟨h1, h2⟩ := ha
      cases a with
      | nil => exact absurd rfl h1
      | cons y a =>
        simp only [List.cons_append, List.cons.injEq] at ez
        rw [← ez.1]; exact patternChar_notWs (h2 y (by simp))
  have := run.matchAt
  rw [List.append_nil] at this
  rw [eq]
  exact this

/-! ### Lines -/

theorem clean_all {l : Str} (h : ∀ x ∈ l, isWs x = false ∨ x = ' ') : CleanLine l := by
  constructor
  · intro x hx e
    subst e
    rcases h _ hx with h | h
    · exact absurd h (by decide)
    · exact absurd h (by decide)
  · intro e
    rcases h _ (List.mem_of_getLast? e) with h | h
    · exact absurd h (by decide)
    · exact absurd h (by decide)

theorem padRight_chars {w : Nat} {a : Str} (h : ∀ x ∈ a, isWs x = false) : ∀ x ∈ padRight w a, isWs x = false ∨ x = ' ' := by
  intro x hx
  unfold padRight at hx
  rcases List.mem_append.mp hx with hx | hx
  · exact .inl (h x hx)
  · rw [rep, List.mem_replicate] at hx
    exact .inr hx.2

theorem write_clean {env : RuleEnv} {sets : List RuleSet} {it : RuleItem} (h : Writable env sets it) {w : Nat} {line : Str}
    (hw : it.write sets w = .ok line) : CleanLine line := by
  cases it with
  | rule r =>
    obtain ⟨acct, src, notes⟩ := r
    obtain ⟨a, ha, hp, _, _, _, _, hs⟩ := h
    simp only at ha hs
    subst ha
    cases hw
    have hpre : ∀ x ∈ str "  " ++ padRight w a ++ str " ", isWs x = false ∨ x = ' ' := by
      intro x hx
      rcases List.mem_append.mp hx with hx | hx
      · rcases List.mem_append.mp hx with hx | hx
        · rw [show str "  " = [' ', ' '] from rfl] at hx; simp at hx; exact .inr hx
        · exact padRight_chars (fun x hx => patternChar_notWs (hp.2 x hx)) x hx
      · rw [show str " " = [' '] from rfl] at hx; simp at hx; exact .inr hx
    rcases hs with rfl | ⟨x, y, mid, rfl, hx, hy, hm⟩
    · refine clean_all ?_
      show ∀ x ∈ str "  " ++ padRight w a ++ str " " ++ [], _
      rw [List.append_nil]
      exact hpre
    · constructor
      · intro z hz e
        subst e
        rcases List.mem_append.mp hz with hz | hz
        · exact (clean_all hpre).1 _ hz rfl
        · rcases List.mem_cons.mp hz with hz | hz
          · rw [← hz] at hx; exact absurd hx (by decide)
          · rcases List.mem_append.mp hz with hz | hz
            · exact hm _ hz rfl
            · rw [List.mem_singleton] at hz; rw [← hz] at hy; exact absurd hy (by decide)
      · have : (str "  " ++ padRight w a ++ str " " ++ x :: (mid ++ [y])).getLast? = some y := by
          rw [show str "  " ++ padRight w a ++ str " " ++ x :: (mid ++ [y]) = (str "  " ++ padRight w a ++ str " " ++ x :: mid) ++ [y] by simp]
          rw [List.getLast?_concat]
        simp only []
        rw [this]
        intro e
        cases e
        exact absurd hy (by decide)
  | ref i =>
    obtain ⟨s, hs, hne, hww, _⟩ := h
    have : RuleItem.write sets w (.ref i) = .ok (str "  @" ++ padRight w s.name) := by simp only [RuleItem.write, RuleItem.nameOf, hs]; rfl
    rw [this] at hw
    cases hw
    refine clean_all ?_
    intro x hx
    rcases List.mem_append.mp hx with hx | hx
    · rw [show str "  @" = [' ', ' ', '@'] from rfl] at hx
      simp only [List.mem_cons, List.not_mem_nil, or_false] at hx
      rcases hx with rfl | rfl | rfl
      · exact .inr rfl
      · exact .inr rfl
      · exact .inl (by decide)
    · exact padRight_chars (fun x hx => word_notWs (hww x hx)) x hx

theorem writeRules_clean {env : RuleEnv} {sets : List RuleSet} {items : List RuleItem} {lines : List Str} (h : ∀ it ∈ items, Writable env sets it)
    (hw : writeRules sets items = .ok lines) : ∀ l ∈ lines, CleanLine l := by
  unfold writeRules at hw
  obtain ⟨names, _, h2⟩ := bind_ok.mp hw
  intro l hl
  obtain ⟨it, hit, hwr⟩ := forall2_mem_right ((mapM_ok _ _ _).mp h2) l hl
  exact write_clean (h it hit) hwr

/-- Writing looks only at the names of the sets. -/
theorem writeRules_congr {sets sets' : List RuleSet} {items : List RuleItem} (h : ∀ it ∈ items, it.nameOf sets = it.nameOf sets') :
    writeRules sets items = writeRules sets' items := by
  have m1 : items.mapM (RuleItem.nameOf sets) = items.mapM (RuleItem.nameOf sets') := by
    induction items with
    | nil => rfl
    | cons it items ih => rw [List.mapM_cons, List.mapM_cons, h it (by simp), ih (fun x hx => h x (by simp [hx]))]
  have m2 : ∀ w, items.mapM (RuleItem.write sets w) = items.mapM (RuleItem.write sets' w) := by
    intro w
    clear m1
    induction items with
    | nil => rfl
    | cons it items ih =>
      rw [List.mapM_cons, List.mapM_cons, ih (fun x hx => h x (by simp [hx]))]
      have : it.write sets w = it.write sets' w := by unfold RuleItem.write; rw [h it (by simp)]
      rw [this]
  unfold writeRules
  rw [m1]
  exact bind_congr' _ fun names => m2 _

theorem nameOf_prefix {env : RuleEnv} {pre suf : List RuleSet} {s : RuleSet} {it : RuleItem} (h : Writable env (pre ++ [⟨s.name, []⟩]) it) :
    it.nameOf (pre ++ s :: suf) = it.nameOf (pre ++ [⟨s.name, []⟩]) := by
  cases it with
  | rule r => rfl
  | ref j =>
    obtain ⟨s', hs', _⟩ := h
    unfold RuleItem.nameOf
    rcases Nat.lt_trichotomy j pre.length with hj | hj | hj
    · simp only []
      rw [List.getElem?_append_left hj, List.getElem?_append_left hj]
    · subst hj
      simp
    · rw [List.getElem?_eq_none (by simp; omega)] at hs'
      cases hs'

/-! ### Sections -/

/-- What may follow a section: nothing, or a line beginning with a word. -/
def StartsPlain (rest : List Str) : Prop := rest = [] ∨ ∃ x t r, rest = (x :: t) :: r ∧ isWord x = true

theorem bodyLoop_stop {env : RuleEnv} {sets : List RuleSet} {items : List RuleItem} {rest : List Str} (h : StartsPlain rest) :
    bodyLoop env sets items rest = .ok (items, rest) := by
  rcases h with rfl | ⟨x, t, r, rfl, hx⟩
  · rfl
  · rw [bodyLoop, notBody hx]

theorem scan_set {env : RuleEnv} {ri : RuleIndex} {s : RuleSet} {lines rest : List Str} (n : Nat) (hne : s.name ≠ []) (hw : ∀ x ∈ s.name, isWord x = true)
    (hb : ∀ rest, bodyLoop env (ri.sets ++ [⟨s.name, []⟩]) [] (lines ++ rest) = bodyLoop env (ri.sets ++ [⟨s.name, []⟩]) s.items rest) (hr : StartsPlain rest) :
    scanRules env (n + 1) ri (s.name :: (lines ++ rest)) = scanRules env n { ri with sets := ri.sets ++ [s] } rest := by
  conv_lhs => unfold scanRules
  rw [setHead_match hne hw]
  have g1 : Caps.get [(str "3", s.name)] (str "1") = [] := by simp [Caps.get, str]
  have g3 : Caps.get [(str "3", s.name)] (str "3") = s.name := get_cons_eq
  simp only []
  rw [g1, g3, if_neg (by simp), hb, bodyLoop_stop hr]
  rfl

theorem scan_account {env : RuleEnv} {ri : RuleIndex} {w : Nat} {e : Str × AccountRules} {lines rest : List Str} (n : Nat) (hne : e.1 ≠ [])
    (hw : ∀ x ∈ e.1, isWord x = true) (ha : AccountPattern e.2.account) (hf : env.find e.2.account = .ok e.2.account)
    (hb : ∀ rest, bodyLoop env ri.sets [] (lines ++ rest) = bodyLoop env ri.sets e.2.items rest) (hr : StartsPlain rest) :
    scanRules env (n + 1) ri (accountHead w e :: (lines ++ rest)) = scanRules env n { ri with accounts := e :: ri.accounts } rest := by
  conv_lhs => unfold scanRules
  rw [dumpedHead_match hne hw ha]
  have g1 : Caps.get [(str "2", e.2.account), (str "1", e.1)] (str "1") = e.1 := by simp [Caps.get, str]
  have g2 : Caps.get [(str "2", e.2.account), (str "1", e.1)] (str "2") = e.2.account := get_cons_eq
  simp only []
  rw [g1, g2, if_pos hne, hf]
  show ((bodyLoop env ri.sets [] (lines ++ rest)).bind fun r => scanRules env n { ri with accounts := (e.1, ⟨e.2.account, r.1⟩) :: ri.accounts } r.2) = _
  rw [hb, bodyLoop_stop hr]
  rfl

theorem head_plain {name : Str} {rest : List Str} (hne : name ≠ []) (hw : ∀ x ∈ name, isWord x = true) : StartsPlain (name :: rest) := by
  cases name with
  | nil => exact absurd rfl hne
  | cons x t => exact .inr ⟨x, t, rest, rfl, hw x (by simp)⟩

theorem accountHead_plain {w : Nat} {e : Str × AccountRules} {rest : List Str} (hne : e.1 ≠ []) (hw : ∀ x ∈ e.1, isWord x = true) :
    StartsPlain (accountHead w e :: rest) := by
  obtain ⟨id, ars⟩ := e
  cases id with
  | nil => exact absurd rfl hne
  | cons x t => exact .inr ⟨x, _, rest, rfl, hw x (by simp)⟩

theorem sets_read {env : RuleEnv} (suf : List RuleSet) : ∀ (pre : List RuleSet),
    (∀ (i : Nat) (s : RuleSet), suf[i]? = some s → s.name ≠ [] ∧ (∀ x ∈ s.name, isWord x = true) ∧
      ∀ it ∈ s.items, Writable env (pre ++ suf.take i ++ [⟨s.name, []⟩]) it) →
    ∃ ls, writeSets (pre ++ suf) suf = .ok ls ∧ (∀ l ∈ ls, CleanLine l) ∧ (suf = [] → ls = []) ∧ (∀ rest, StartsPlain rest → StartsPlain (ls ++ rest)) ∧
      ∀ rest, StartsPlain rest → ∀ n, (ls ++ rest).length ≤ n → ∀ accs, ∃ m, rest.length ≤ m ∧
        scanRules env n ⟨accs, pre⟩ (ls ++ rest) = scanRules env m ⟨accs, pre ++ suf⟩ rest := by
  induction suf with
  | nil =>
    intro pre _
    exact ⟨[], rfl, by simp, fun _ => rfl, fun rest h => h, fun rest _ n hn accs => ⟨n, hn, by simp⟩⟩
  | cons s suf ih =>
    intro pre h
    obtain ⟨hne, hw, hit⟩ := h 0 s rfl
    have hit : ∀ it ∈ s.items, Writable env (pre ++ [⟨s.name, []⟩]) it := by simpa using hit
    obtain ⟨lines, h1, _, h3⟩ := C78_dump_partial env _ s.items hit
    obtain ⟨ls, k1, k2, _, k4, k5⟩ := ih (pre ++ [s]) (by
      intro i u hu
      obtain ⟨a, b, c⟩ := h (i + 1) u (by simpa using hu)
      refine ⟨a, b, fun it hi => ?_⟩
      have := c it hi
      rw [List.take_succ_cons] at this
      simpa using this)
    have e : pre ++ [s] ++ suf = pre ++ s :: suf := by simp
    rw [e] at k1
    have hwr : writeRules (pre ++ s :: suf) s.items = .ok lines := by
      rw [writeRules_congr (fun it hi => nameOf_prefix (hit it hi))]
      exact h1
    refine ⟨s.name :: lines ++ ls, ?_, ?_, by simp, ?_, ?_⟩
    · rw [writeSets, hwr]
      show ((writeSets (pre ++ s :: suf) suf).bind fun r => _) = _
      rw [k1]
      rfl
    · intro l hl
      rcases List.mem_append.mp hl with hl | hl
      · rcases List.mem_cons.mp hl with rfl | hl
        · exact clean_all (fun x hx => .inl (word_notWs (hw x hx)))
        · exact writeRules_clean hit h1 l hl
      · exact k2 l hl
    · intro rest _
      exact head_plain hne hw
    · intro rest hr n hn accs
      have hl : (s.name :: lines ++ ls ++ rest) = s.name :: (lines ++ (ls ++ rest)) := by simp
      rw [hl] at hn ⊢
      cases n with
      | zero => simp at hn
      | succ n =>
        rw [scan_set n hne hw h3 (k4 rest hr)]
        obtain ⟨m, hm, hs⟩ := k5 rest hr n (by simp at hn ⊢; omega) accs
        refine ⟨m, hm, ?_⟩
        show scanRules env n ⟨accs, pre ++ [s]⟩ (ls ++ rest) = _
        rw [hs, e]

theorem accounts_read {env : RuleEnv} {sets : List RuleSet} (w : Nat) (es : List (Str × AccountRules))
    (h : ∀ e ∈ es, e.1 ≠ [] ∧ (∀ x ∈ e.1, isWord x = true) ∧ AccountPattern e.2.account ∧ env.find e.2.account = .ok e.2.account ∧
      ∀ it ∈ e.2.items, Writable env sets it) :
    ∃ ls, writeAccounts sets w es = .ok ls ∧ (∀ l ∈ ls, CleanLine l) ∧ StartsPlain ls ∧ (ls = [] → es = []) ∧
      ∀ n, ls.length ≤ n → ∀ accs, scanRules env n ⟨accs, sets⟩ ls = .ok ⟨es.reverse ++ accs, sets⟩ := by
  induction es with
  | nil =>
    refine ⟨[], rfl, by simp, .inl rfl, fun _ => rfl, ?_⟩
    intro n _ accs
    cases n <;> rfl
  | cons e es ih =>
    obtain ⟨hne, hw, ha, hf, hit⟩ := h e (by simp)
    obtain ⟨ls, k1, k2, k3, _, k5⟩ := ih (fun x hx => h x (by simp [hx]))
    obtain ⟨lines, h1, _, h3⟩ := C78_dump_partial env _ e.2.items hit
    refine ⟨accountHead w e :: lines ++ ls, ?_, ?_, accountHead_plain hne hw, by simp, ?_⟩
    · rw [writeAccounts, h1]
      show ((writeAccounts sets w es).bind fun r => _) = _
      rw [k1]
      rfl
    · intro l hl
      rcases List.mem_append.mp hl with hl | hl
      · rcases List.mem_cons.mp hl with rfl | hl
        · refine clean_all ?_
          intro x hx
          unfold accountHead at hx
          rcases List.mem_append.mp hx with hx | hx
          · rcases List.mem_append.mp hx with hx | hx
            · exact padRight_chars (fun x hx => word_notWs (hw x hx)) x hx
            · rw [show str " " = [' '] from rfl] at hx; simp at hx; exact .inr hx
          · exact .inl (patternChar_notWs (ha.2 x hx))
        · exact writeRules_clean hit h1 l hl
      · exact k2 l hl
    · intro n hn accs
      cases n with
      | zero => simp at hn
      | succ n =>
        rw [List.cons_append, scan_account n hne hw ha hf h3 k3]
        show scanRules env n ⟨e :: accs, sets⟩ ls = _
        rw [k5 n (by simp at hn; omega)]
        simp

/-! ### The map -/

theorem mapEntries_mem {l : List (Str × AccountRules)} {e : Str × AccountRules} : e ∈ mapEntries l ↔ l.find? (fun x => decide (x.1 = e.1)) = some e := by
  induction l with
  | nil => simp [mapEntries]
  | cons a l ih =>
    rw [mapEntries, List.find?_cons]
    by_cases h : a.1 = e.1
    · rw [decide_eq_true h]
      simp only [List.mem_cons, List.mem_filter, Option.some.injEq]
      constructor
      · rintro (rfl | ⟨_, h2⟩)
        · rfl
        · exact absurd h.symm (by simpa using h2)
      · intro h; exact .inl h.symm
    · rw [decide_eq_false h]
      simp only [List.mem_cons, List.mem_filter, ih]
      constructor
      · rintro (rfl | ⟨h1, _⟩)
        · exact absurd rfl h
        · exact h1
      · intro h1; exact .inr ⟨h1, by simpa using fun e' => h e'.symm⟩

theorem mapEntries_nodup (l : List (Str × AccountRules)) : ((mapEntries l).map (·.1)).Nodup := by
  induction l with
  | nil => exact List.nodup_nil
  | cons a l ih =>
    rw [mapEntries, List.map_cons, List.nodup_cons]
    constructor
    · intro h
      obtain ⟨x, hx, e⟩ := List.mem_map.mp h
      have := (List.mem_filter.mp hx).2
      exact absurd e (by simpa using this)
    · exact ih.sublist (List.Sublist.map _ List.filter_sublist)

theorem find_unique {l : List (Str × AccountRules)} (hn : (l.map (·.1)).Nodup) {e : Str × AccountRules} (he : e ∈ l) :
    l.find? (fun x => decide (x.1 = e.1)) = some e := by
  induction l with
  | nil => cases he
  | cons a l ih =>
    rw [List.map_cons, List.nodup_cons] at hn
    rw [List.find?_cons]
    rcases List.mem_cons.mp he with rfl | he
    · rw [decide_eq_true rfl]
    · by_cases h : a.1 = e.1
      · exact absurd (List.mem_map.mpr ⟨e, he, h.symm⟩) hn.1
      · rw [decide_eq_false h]
        exact ih hn.2 he

/-- **C78 (partial)** The whole file: an index that the format can hold is dumped without failure, for every order in which the map of
accounts is visited, and reading the dump gives the same sets and, for every id, the same account with the same rules. Missing: rules that
drop transactions (writing them panics), notes (they are not written), account names with a slash (the rule format cuts them). -/
theorem C78_file_partial (env : RuleEnv) (ri : RuleIndex) (order : List (Str × AccountRules)) (h : Dumpable env ri) (ho : order.Perm (mapEntries ri.accounts))
    (hne : ri.sets ≠ [] ∨ ri.accounts ≠ []) :
    ∃ lines ri', writeIndex ri.sets order = .ok lines ∧ readRules env (textOf lines) = .ok (some ri') ∧ ri'.sets = ri.sets ∧
      ∀ id, ri'.accountRules id = ri.accountRules id := by
  have hacc : ∀ e ∈ order, e.1 ≠ [] ∧ (∀ x ∈ e.1, isWord x = true) ∧ AccountPattern e.2.account ∧ env.find e.2.account = .ok e.2.account ∧
      ∀ it ∈ e.2.items, Writable env ri.sets it := by
    intro e he
    have := mapEntries_mem.mp (ho.mem_iff.mp he)
    exact h.accounts e (List.mem_of_find?_eq_some this)
  obtain ⟨a, a1, a2, a3, a4, a5⟩ := sets_read (env := env) ri.sets [] (by simpa using h.sets)
  obtain ⟨b, b1, b2, b3, b4, b5⟩ := accounts_read (env := env) (sets := ri.sets) ((order.map (·.1)).foldl (fun m n => max m n.length) 0) order hacc
  have hclean : ∀ l ∈ a ++ b, CleanLine l := by
    intro l hl
    rcases List.mem_append.mp hl with hl | hl
    · exact a2 l hl
    · exact b2 l hl
  obtain ⟨m, hm, hs⟩ := a5 b b3 (a ++ b).length (Nat.le_refl _) []
  rw [List.nil_append] at hs a1
  have hlines : a ++ b ≠ [] := by
    intro e
    obtain ⟨ea, eb⟩ := List.append_eq_nil_iff.mp e
    rcases hne with hne | hne
    · cases hset : ri.sets with
      | nil => exact hne hset
      | cons s ss =>
        rw [hset, writeSets] at a1
        obtain ⟨x, _, y⟩ := bind_ok.mp a1
        obtain ⟨z, _, y⟩ := bind_ok.mp y
        cases y
        cases ea
    · have := b4 eb
      subst this
      have := ho.symm.eq_nil
      cases hacc : ri.accounts with
      | nil => exact hne hacc
      | cons e es => rw [hacc, mapEntries] at this; cases this
  refine ⟨a ++ b, ⟨order.reverse, ri.sets⟩, ?_, ?_, rfl, ?_⟩
  · unfold writeIndex
    rw [a1]
    show ((writeAccounts ri.sets _ order).bind fun b => _) = _
    rw [b1]
    rfl
  · unfold readRules
    rw [scanLines_textOf hclean]
    cases hab : a ++ b with
    | nil => exact absurd hab hlines
    | cons x xs =>
      show ((scanRules env (x :: xs).length ⟨[], []⟩ (x :: xs)).bind fun ri => .ok (some ri)) = _
      rw [← hab, hs, b5 m hm []]
      simp [Except.bind]
  · intro id
    unfold RuleIndex.accountRules
    congr 1
    have hn : (order.reverse.map (·.1)).Nodup := by
      have : (order.reverse.map (·.1)).Perm ((mapEntries ri.accounts).map (·.1)) := ((List.reverse_perm order).trans ho).map _
      exact this.nodup_iff.mpr (mapEntries_nodup _)
    cases hf : ri.accounts.find? (fun e => decide (e.1 = id)) with
    | some e =>
      have e1 : e.1 = id := by simpa using List.find?_some hf
      subst e1
      have : e ∈ order.reverse := by rw [List.mem_reverse]; exact ho.mem_iff.mpr (mapEntries_mem.mpr hf)
      exact find_unique hn this
    | none =>
      rw [List.find?_eq_none] at hf ⊢
      intro e he
      rw [List.mem_reverse] at he
      exact hf e (List.mem_of_find?_eq_some (mapEntries_mem.mp (ho.mem_iff.mp he)))

/-- Two sets, one referring to the other, and two accounts. -/
def exIndex : RuleIndex :=
  ⟨[(str "123", ⟨str "Assets:Bank", [.ref 1, .rule ⟨some (str "Misc"), [], []⟩]⟩), (str "77", ⟨str "Assets:Card", []⟩)],
   [⟨str "food", [.rule ⟨some (str "Expenses:Food"), str "SHOP|MARKET", []⟩]⟩, ⟨str "common", [.ref 0, .rule ⟨some (str "Expenses:Gas"), str "SHELL", []⟩]⟩]⟩

example : Dumpable exRuleEnv exIndex := by
  refine ⟨?_, ?_⟩
  · intro i s hs
    match i, hs with
    | 0, hs =>
      cases hs
      refine ⟨by decide, by decide, ?_⟩
      intro it hit
      simp only [List.mem_singleton] at hit
      subst hit
      exact ⟨_, rfl, ⟨by decide, by decide⟩, by decide, rfl, rfl, rfl, .inr ⟨'S', 'T', str "HOP|MARKE", rfl, by decide, by decide, by decide⟩⟩
    | 1, hs =>
      cases hs
      refine ⟨by decide, by decide, ?_⟩
      intro it hit
      simp only [List.mem_cons, List.not_mem_nil, or_false] at hit
      rcases hit with rfl | rfl
      · exact ⟨_, rfl, by decide, by decide, by decide⟩
      · exact ⟨_, rfl, ⟨by decide, by decide⟩, by decide, rfl, rfl, rfl, .inr ⟨'S', 'L', str "HEL", rfl, by decide, by decide, by decide⟩⟩
    | i + 2, hs => cases hs
  · intro e he
    simp only [exIndex, List.mem_cons, List.not_mem_nil, or_false] at he
    rcases he with rfl | rfl
    · refine ⟨by decide, by decide, ⟨by decide, by decide⟩, rfl, ?_⟩
      intro it hit
      simp only [List.mem_cons, List.not_mem_nil, or_false] at hit
      rcases hit with rfl | rfl
      · exact ⟨_, rfl, by decide, by decide, by decide⟩
      · exact ⟨_, rfl, ⟨by decide, by decide⟩, by decide, rfl, rfl, rfl, .inl rfl⟩
    · exact ⟨by decide, by decide, ⟨by decide, by decide⟩, rfl, by simp⟩

/-- A slash in an account's name: the dump is read as another account. -/
example : (writeIndex [] [(str "1", ⟨str "Assets:A/B", []⟩)]).toOption = some [str "1 Assets:A/B"] ∧
    (readRules exRuleEnv (textOf [str "1 Assets:A/B"])).toOption = some (some ⟨[(str "1", ⟨str "Assets:A", []⟩)], []⟩) := by
  constructor <;> decide +kernel

end Verif
