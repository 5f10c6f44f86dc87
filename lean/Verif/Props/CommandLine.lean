import Verif.Model.CommandLine
import Verif.Props.TextOut
import Mathlib.Data.List.Forall2
/-
C153-C155: the command line of `coin`.
-/
namespace Verif

/-! ## Specification -/

/-- The text `=v` of a value, nothing without. -/
def valueText : Option Str → Str
  | none => []
  | some v => '=' :: v

/-- Names of flags that can be written: distinct, not empty, without `=`, not beginning with a dash. -/
structure FlagNames (defs : List (Str × FlagKind)) : Prop where
  nodup : (defs.map (·.1)).Nodup
  plain : ∀ e ∈ defs, ∃ c t, e.1 = c :: t ∧ c ≠ '-' ∧ '=' ∉ e.1

/-- One or two dashes. -/
def Dashes (d : Str) : Prop := d = ['-'] ∨ d = ['-', '-']

/-- The ways to write the setting of a flag as arguments: `-x=v`; `-x v` unless the flag is boolean; `-x` for a boolean flag, which
means true. The value must be one the flag accepts. -/
inductive Written (env : FlagEnv) (defs : List (Str × FlagKind)) : Str × Str → List Str → Prop
  | equals {d name v : Str} {k : FlagKind} : Dashes d → (name, k) ∈ defs → env.accepts k v = true → Written env defs (name, v) [d ++ name ++ '=' :: v]
  | next {d name v : Str} {k : FlagKind} : Dashes d → (name, k) ∈ defs → k ≠ .bool → env.accepts k v = true → Written env defs (name, v) [d ++ name, v]
  | bare {d name : Str} : Dashes d → (name, .bool) ∈ defs → Written env defs (name, str "true") [d ++ name]

/-- An argument that is not a flag: it does not begin with a dash, or is just a dash. -/
def PlainArg (a : Str) : Prop := a = ['-'] ∨ a.head? ≠ some '-'

/-- What may follow the flags, and the arguments it stands for: nothing, an argument that is not a flag and anything, or `--` and
anything. -/
inductive Remaining : List Str → List Str → Prop
  | nothing : Remaining [] []
  | plain {a : Str} {rest : List Str} : PlainArg a → Remaining (a :: rest) (a :: rest)
  | dashes {rest : List Str} : Remaining (['-', '-'] :: rest) rest

/-! ## Tokens -/

theorem cutEquals_join (u : Str) : u = (cutEquals u).1 ++ valueText (cutEquals u).2 := by
  induction u with
  | nil => rfl
  | cons c t ih =>
    unfold cutEquals
    by_cases hc : c = '='
    · rw [if_pos hc, hc]; rfl
    · rw [if_neg hc]
      simp only [List.cons_append]
      rw [← ih]

theorem cutEquals_none {u : Str} (h : '=' ∉ u) : cutEquals u = (u, none) := by
  induction u with
  | nil => rfl
  | cons c t ih =>
    unfold cutEquals
    rw [if_neg (by intro e; exact h (by simp [e])), ih (by intro e; exact h (by simp [e]))]

theorem cutEquals_some {u v : Str} (h : '=' ∉ u) : cutEquals (u ++ '=' :: v) = (u, some v) := by
  induction u with
  | nil => rfl
  | cons c t ih =>
    rw [List.cons_append]
    unfold cutEquals
    rw [if_neg (by intro e; exact h (by simp [e])), ih (by intro e; exact h (by simp [e]))]

theorem flagNamed_of {c : Char} {t : Str} (h1 : c ≠ '-') (h2 : c ≠ '=') : flagNamed (c :: t) = .flag (cutEquals (c :: t)).1 (cutEquals (c :: t)).2 := by
  unfold flagNamed
  simp only []
  rw [if_neg (by rintro (e | e); exact h1 e; exact h2 e)]

theorem flagToken_named {d : Str} {c : Char} {t : Str} (hd : Dashes d) (h1 : c ≠ '-') (h2 : c ≠ '=') :
    flagToken (d ++ c :: t) = .flag (cutEquals (c :: t)).1 (cutEquals (c :: t)).2 := by
  rcases hd with rfl | rfl
  · show flagToken ('-' :: c :: t) = _
    unfold flagToken
    simp only []
    rw [if_neg (by simp), if_neg h1]
    exact flagNamed_of h1 h2
  · show flagToken ('-' :: '-' :: c :: t) = _
    unfold flagToken
    simp only []
    rw [if_neg (by simp), if_pos (by trivial), if_neg (by simp)]
    exact flagNamed_of h1 h2

theorem flagToken_flag {s name : Str} {v : Option Str} (h : flagToken s = .flag name v) :
    ∃ d, Dashes d ∧ s = d ++ name ++ valueText v := by
  have named : ∀ u, flagNamed u = .flag name v → u = name ++ valueText v := by
    intro u hu
    unfold flagNamed at hu
    cases u with
    | nil => cases hu
    | cons c t =>
      simp only [] at hu
      split at hu
      · cases hu
      · have := cutEquals_join (c :: t)
        injection hu with h1 h2
        rw [h1, h2] at this
        exact this
  unfold flagToken at h
  match s, h with
  | [], h => cases h
  | [_], h => cases h
  | c :: d :: t, h =>
    simp only [] at h
    by_cases hc : c = '-'
    · subst hc
      rw [if_neg (by simp)] at h
      by_cases hd : d = '-'
      · subst hd
        rw [if_pos rfl] at h
        by_cases ht : t = []
        · rw [if_pos ht] at h; cases h
        · rw [if_neg ht] at h
          refine ⟨['-', '-'], .inr rfl, ?_⟩
          rw [named t h]; simp
      · rw [if_neg hd] at h
        refine ⟨['-'], .inl rfl, ?_⟩
        rw [named _ h]; simp
    · rw [if_pos hc] at h; cases h

theorem flagToken_arg {s : Str} : flagToken s = .arg ↔ PlainArg s := by
  unfold PlainArg
  match s with
  | [] => simp [flagToken]
  | [c] =>
    simp only [flagToken, List.cons.injEq, and_true, List.head?_cons, Option.some.injEq, true_iff, ne_eq]
    exact Decidable.em _
  | c :: d :: t =>
    unfold flagToken
    simp only [List.cons.injEq, List.head?_cons, Option.some.injEq, ne_eq]
    have nn : ∀ u, flagNamed u ≠ .arg := by
      intro u
      unfold flagNamed
      cases u with
      | nil => simp
      | cons x y => simp only []; split <;> simp
    by_cases hc : c = '-'
    · rw [if_neg (by simpa using hc)]
      constructor
      · intro h
        exfalso
        split at h
        · split at h
          · cases h
          · exact nn _ h
        · exact nn _ h
      · rintro (h | h)
        · simp at h
        · exact absurd hc h
    · rw [if_pos (by simpa using hc)]
      simp [hc]

theorem flagToken_stop {s : Str} : flagToken s = .stop ↔ s = ['-', '-'] := by
  constructor
  · intro h
    have nn : ∀ u, flagNamed u ≠ .stop := by
      intro u
      unfold flagNamed
      cases u with
      | nil => simp
      | cons x y => simp only []; split <;> simp
    unfold flagToken at h
    match s, h with
    | [], h => cases h
    | [_], h => cases h
    | c :: d :: t, h =>
      simp only [] at h
      split at h
      · cases h
      · next hc =>
        split at h
        · next hd =>
          split at h
          · next ht => subst hd; subst ht; simp at hc; subst hc; rfl
          · exact absurd h (nn _)
        · exact absurd h (nn _)
  · rintro rfl
    rfl

theorem kindOf_of_mem {defs : List (Str × FlagKind)} (hn : (defs.map (·.1)).Nodup) {name : Str} {k : FlagKind} (h : (name, k) ∈ defs) :
    kindOf defs name = some k := by
  unfold kindOf
  induction defs with
  | nil => cases h
  | cons e defs ih =>
    rw [List.map_cons, List.nodup_cons] at hn
    rw [List.find?_cons]
    rcases List.mem_cons.mp h with rfl | h
    · simp
    · have : e.1 ≠ name := by
        intro e'
        exact hn.1 (e' ▸ List.mem_map.mpr ⟨_, h, rfl⟩)
      rw [decide_eq_false this]
      exact ih hn.2 h

theorem mem_of_kindOf {defs : List (Str × FlagKind)} {name : Str} {k : FlagKind} (h : kindOf defs name = some k) : (name, k) ∈ defs := by
  unfold kindOf at h
  rw [Option.map_eq_some_iff] at h
  obtain ⟨e, h1, h2⟩ := h
  have := List.find?_some h1
  simp only [decide_eq_true_eq] at this
  rw [← this, ← h2]
  exact List.mem_of_find?_eq_some h1

/-! ## C153 -/

theorem parseFlags_written {env : FlagEnv} {defs : List (Str × FlagKind)} (hd : FlagNames defs) {x : Str × Str} {toks : List Str} (h : Written env defs x toks)
    (rest : List Str) : parseFlags env defs (toks ++ rest) = (parseFlags env defs rest).bind fun r => .ok (x :: r.1, r.2) := by
  cases h with
  | @equals d name v k h1 h2 h3 =>
    obtain ⟨c, t, e, hc, he⟩ := hd.plain _ h2
    simp only at e he
    have hc2 : c ≠ '=' := by intro e'; exact he (by rw [e, e']; simp)
    have tok : flagToken (d ++ name ++ '=' :: v) = .flag name (some v) := by
      have := flagToken_named (t := t ++ '=' :: v) h1 hc hc2
      rw [show d ++ c :: (t ++ '=' :: v) = d ++ name ++ '=' :: v by rw [e]; simp] at this
      rw [this, show c :: (t ++ '=' :: v) = name ++ '=' :: v by rw [e]; rfl, cutEquals_some he]
    show parseFlags env defs ((d ++ name ++ '=' :: v) :: rest) = _
    conv_lhs => unfold parseFlags
    rw [tok]
    simp only []
    rw [kindOf_of_mem hd.nodup h2]
    simp only []
    rw [if_pos h3]
  | @next d name v k h1 h2 h3 h4 =>
    obtain ⟨c, t, e, hc, he⟩ := hd.plain _ h2
    simp only at e he
    have hc2 : c ≠ '=' := by intro e'; exact he (by rw [e, e']; simp)
    have tok : flagToken (d ++ name) = .flag name none := by
      have := flagToken_named (t := t) h1 hc hc2
      rw [← e] at this
      rw [this, cutEquals_none he]
    show parseFlags env defs ((d ++ name) :: v :: rest) = _
    conv_lhs => unfold parseFlags
    rw [tok]
    simp only []
    rw [kindOf_of_mem hd.nodup h2]
    cases k with
    | bool => exact absurd rfl h3
    | text => simp only []; rw [if_pos h4]
    | int => simp only []; rw [if_pos h4]
    | date => simp only []; rw [if_pos h4]
  | @bare d name h1 h2 =>
    obtain ⟨c, t, e, hc, he⟩ := hd.plain _ h2
    simp only at e he
    have hc2 : c ≠ '=' := by intro e'; exact he (by rw [e, e']; simp)
    have tok : flagToken (d ++ name) = .flag name none := by
      have := flagToken_named (t := t) h1 hc hc2
      rw [← e] at this
      rw [this, cutEquals_none he]
    show parseFlags env defs ((d ++ name) :: rest) = _
    conv_lhs => unfold parseFlags
    rw [tok]
    simp only []
    rw [kindOf_of_mem hd.nodup h2]

theorem parseFlags_remaining {env : FlagEnv} {defs : List (Str × FlagKind)} {tail args : List Str} (h : Remaining tail args) :
    parseFlags env defs tail = .ok ([], args) := by
  cases h with
  | nothing => rfl
  | plain h => conv_lhs => unfold parseFlags
               rw [flagToken_arg.mpr h]
  | dashes => conv_lhs => unfold parseFlags
              rw [flagToken_stop.mpr rfl]

theorem parseFlags_sound {env : FlagEnv} {defs : List (Str × FlagKind)} : ∀ (n : Nat) (argv : List Str), argv.length ≤ n → ∀ (l : List (Str × Str)) (args : List Str),
    parseFlags env defs argv = .ok (l, args) →
    ∃ toks tail, argv = toks.flatten ++ tail ∧ List.Forall₂ (Written env defs) l toks ∧ Remaining tail args := by
  intro n
  induction n with
  | zero =>
    intro argv hn l args h
    have : argv = [] := List.length_eq_zero_iff.mp (Nat.le_zero.mp hn)
    subst this
    cases h
    exact ⟨[], [], rfl, .nil, .nothing⟩
  | succ n ih =>
    intro argv hn l args h
    cases argv with
    | nil =>
      cases h
      exact ⟨[], [], rfl, .nil, .nothing⟩
    | cons s rest =>
      simp only [List.length_cons] at hn
      conv at h => lhs; unfold parseFlags
      cases ht : flagToken s with
      | arg =>
        rw [ht] at h
        cases h
        exact ⟨[], s :: rest, rfl, .nil, .plain (flagToken_arg.mp ht)⟩
      | stop =>
        rw [ht] at h
        cases h
        rw [flagToken_stop.mp ht]
        exact ⟨[], _, rfl, .nil, .dashes⟩
      | bad => rw [ht] at h; cases h
      | flag name value =>
        rw [ht] at h
        simp only [] at h
        obtain ⟨d, hd, hs⟩ := flagToken_flag ht
        cases hk : kindOf defs name with
        | none => rw [hk] at h; cases h
        | some k =>
          rw [hk] at h
          have hm := mem_of_kindOf hk
          have step : ∀ (x : Str × Str) (toks rest' : List Str), Written env defs x toks → s :: rest = toks ++ rest' → rest'.length ≤ n →
              ((parseFlags env defs rest').bind fun r => .ok (x :: r.1, r.2)) = .ok (l, args) →
              ∃ toks tail, s :: rest = toks.flatten ++ tail ∧ List.Forall₂ (Written env defs) l toks ∧ Remaining tail args := by
            intro x toks rest' hw e hl hb
            obtain ⟨⟨l', args'⟩, h1, h2⟩ := bind_ok.mp hb
            cases h2
            obtain ⟨ts, tail, e1, e2, e3⟩ := ih rest' hl l' _ h1
            refine ⟨toks :: ts, tail, ?_, .cons hw e2, e3⟩
            rw [e, e1]; simp
          cases value with
          | some v =>
            simp only [] at h
            split at h
            · next ha => exact step (name, v) [s] rest (by rw [hs]; exact .equals hd hm ha) rfl (by omega) h
            · cases h
          | none =>
            simp only [valueText, List.append_nil] at hs
            by_cases hb : k = .bool
            · subst hb
              simp only [] at h
              exact step (name, str "true") [s] rest (by rw [hs]; exact .bare hd hm) rfl (by omega) h
            · have h' : (match rest with
                  | [] => Except.error Fault.exit
                  | v :: rest => if env.accepts k v = true then (parseFlags env defs rest).bind fun r => .ok ((name, v) :: r.1, r.2) else .error .exit) =
                  .ok (l, args) := by
                cases k with
                | bool => exact absurd rfl hb
                | text => exact h
                | int => exact h
                | date => exact h
              cases rest with
              | nil => cases h'
              | cons v rest =>
                simp only [] at h'
                split at h'
                · next ha => exact step (name, v) [s, v] rest (by rw [hs]; exact .next hd hm hb ha) rfl (by simp only [List.length_cons] at hn; omega) h'
                · cases h'

/-- The flags of every command can be written. -/
theorem flagsOf_names (c : Cmd) : FlagNames (flagsOf c) := by
  constructor
  · cases c <;> decide
  · have : ∀ e ∈ flagsOf c, (match e.1 with | [] => false | x :: _ => decide (x ≠ '-')) = true ∧ '=' ∉ e.1 := by
      cases c <;> decide
    intro e he
    obtain ⟨h1, h2⟩ := this e he
    cases hx : e.1 with
    | nil => rw [hx] at h1; cases h1
    | cons x t => rw [hx] at h1; exact ⟨x, t, rfl, by simpa using h1, hx ▸ h2⟩

/-- **C153** A command line is accepted exactly when it consists of settings of the command's flags, each written in one of the usual ways
with a value the flag accepts, followed by the arguments; the settings are those written, in order. -/
theorem C153_accepted_iff (env : FlagEnv) (c : Cmd) (argv : List Str) (l : List (Str × Str)) (args : List Str) :
    parseFlags env (flagsOf c) argv = .ok (l, args) ↔
      ∃ toks tail, argv = toks.flatten ++ tail ∧ List.Forall₂ (Written env (flagsOf c)) l toks ∧ Remaining tail args := by
  constructor
  · exact parseFlags_sound _ argv (Nat.le_refl _) l args
  · rintro ⟨toks, tail, rfl, h, hr⟩
    induction h with
    | nil => exact parseFlags_remaining hr
    | cons h _ ih =>
      rw [List.flatten_cons, List.append_assoc, parseFlags_written (flagsOf_names c) h, ih]
      rfl

/-- The values a flag takes: a boolean one the twelve texts Go knows, a text anything, the others what can be read as a number or a date. -/
def ValueOf (env : FlagEnv) : FlagKind → Str → Prop
  | .bool, v => v ∈ ["1", "t", "T", "TRUE", "true", "True", "0", "f", "F", "FALSE", "false", "False"].map str
  | .text, _ => True
  | .int, v => ∃ n, env.int v = some n
  | .date, v => ∃ d, env.date v = some d

/-- **C153** What `Written` asks of a value. -/
theorem C153_values (env : FlagEnv) (k : FlagKind) (v : Str) : env.accepts k v = true ↔ ValueOf env k v := by
  cases k with
  | bool =>
    have e : ["1", "t", "T", "TRUE", "true", "True", "0", "f", "F", "FALSE", "false", "False"].map str =
        [str "1", str "t", str "T", str "TRUE", str "true", str "True"] ++ [str "0", str "f", str "F", str "FALSE", str "false", str "False"] := rfl
    show (parseBool v).isSome = true ↔ v ∈ ["1", "t", "T", "TRUE", "true", "True", "0", "f", "F", "FALSE", "false", "False"].map str
    rw [e, List.mem_append]
    unfold parseBool
    split
    · next h1 => exact ⟨fun _ => Or.inl h1, fun _ => rfl⟩
    · next h1 =>
      split
      · next h2 => exact ⟨fun _ => Or.inr h2, fun _ => rfl⟩
      · next h2 => exact ⟨(fun h => by cases h), (fun h => (h.elim h1 h2).elim)⟩
  | text => exact ⟨fun _ => trivial, fun _ => rfl⟩
  | int =>
    show (env.int v).isSome = true ↔ ∃ n, env.int v = some n
    exact Option.isSome_iff_exists
  | date =>
    show (env.date v).isSome = true ↔ ∃ n, env.date v = some n
    exact Option.isSome_iff_exists

theorem balanceMain_congr {env : FlagEnv} {g : LedgerView} {l l' : List (Str × Str)} {args : List Str} (h : ∀ n, lastSetting l n = lastSetting l' n) :
    balanceMain env g l args = balanceMain env g l' args := by
  simp only [balanceMain, filtersOf, FlagEnv.dateFlag, FlagEnv.intFlag, textFlag, boolFlag, h]

theorem registerMain_congr {env : FlagEnv} {g : LedgerView} {l l' : List (Str × Str)} {args : List Str} (h : ∀ n, lastSetting l n = lastSetting l' n) :
    registerMain env g l args = registerMain env g l' args := by
  simp only [registerMain, aggregatedMain, fullMain, registerHead, flagPeriod, categoryOf, filtersOf, FlagEnv.dateFlag, FlagEnv.intFlag, textFlag, boolFlag, h]
  cases args <;> rfl

/-- **C153** Which name of the command, which way of writing, and which order of the flags is used makes no difference: two command lines
whose last settings of each flag agree, followed by the same arguments, print the same. -/
theorem C153_same_run (env : FlagEnv) (g : LedgerView) (c : Cmd) (w w' : Str) (l l' : List (Str × Str)) (toks toks' : List (List Str))
    (tail tail' args : List Str) (hw : commandOf w = some c) (hw' : commandOf w' = some c)
    (h : List.Forall₂ (Written env (flagsOf c)) l toks) (h' : List.Forall₂ (Written env (flagsOf c)) l' toks')
    (hr : Remaining tail args) (hr' : Remaining tail' args)
    (hl : ∀ name, (l.filter (fun e => decide (e.1 = name))).getLast? = (l'.filter (fun e => decide (e.1 = name))).getLast?) :
    coinMain env g (w :: (toks.flatten ++ tail)) = coinMain env g (w' :: (toks'.flatten ++ tail')) := by
  have hv : ∀ n, lastSetting l n = lastSetting l' n := by
    intro n; unfold lastSetting; rw [hl]
  have e1 : dispatch env (w :: (toks.flatten ++ tail)) = .ok (c, l, args) := by
    unfold dispatch
    simp only [List.headD_cons, List.tail_cons, hw]
    rw [(C153_accepted_iff env c _ l args).mpr ⟨toks, tail, rfl, h, hr⟩]; rfl
  have e2 : dispatch env (w' :: (toks'.flatten ++ tail')) = .ok (c, l', args) := by
    unfold dispatch
    simp only [List.headD_cons, List.tail_cons, hw']
    rw [(C153_accepted_iff env c _ l' args).mpr ⟨toks', tail', rfl, h', hr'⟩]; rfl
  unfold coinMain
  rw [e1, e2]
  show (match c with | .balance => _ | .register => _ | _ => _) = (match c with | .balance => _ | .register => _ | _ => _)
  cases c <;> simp only []
  · rw [balanceMain_congr hv]
  · exact registerMain_congr hv

/-! ## C154 -/

/-- **C154** Moving flags behind the account makes no difference. -/
def C154_Statement : Prop := ∀ (env : FlagEnv) (g : LedgerView) (c : Cmd) (w a : Str) (l : List (Str × Str)) (toks : List (List Str)),
  commandOf w = some c → List.Forall₂ (Written env (flagsOf c)) l toks → PlainArg a →
  coinMain env g (w :: a :: toks.flatten) = coinMain env g (w :: (toks.flatten ++ [a]))

theorem dispatch_written {env : FlagEnv} {c : Cmd} {w : Str} {l : List (Str × Str)} {toks : List (List Str)} {tail args : List Str} (hw : commandOf w = some c)
    (h : List.Forall₂ (Written env (flagsOf c)) l toks) (hr : Remaining tail args) : dispatch env (w :: (toks.flatten ++ tail)) = .ok (c, l, args) := by
  unfold dispatch
  simp only [List.headD_cons, List.tail_cons, hw]
  rw [(C153_accepted_iff env c _ l args).mpr ⟨toks, tail, rfl, h, hr⟩]; rfl

/-- **C154** Whatever follows the account is ignored. -/
theorem C154_rest_ignored (env : FlagEnv) (g : LedgerView) (c : Cmd) (w a : Str) (l : List (Str × Str)) (toks : List (List Str)) (rest : List Str)
    (hw : commandOf w = some c) (h : List.Forall₂ (Written env (flagsOf c)) l toks) (ha : PlainArg a) :
    coinMain env g (w :: (toks.flatten ++ a :: rest)) = coinMain env g (w :: (toks.flatten ++ [a])) := by
  unfold coinMain
  rw [dispatch_written hw h (.plain ha), dispatch_written hw h (.plain ha)]
  cases c <;> rfl

/-- **C154 (partial)** Flags before the account all count: the run uses the settings written. Missing: flags behind the account, which are
ignored. -/
theorem C154_before_partial (env : FlagEnv) (g : LedgerView) (w a : Str) (l : List (Str × Str)) (toks : List (List Str))
    (hw : commandOf w = some .balance) (h : List.Forall₂ (Written env (flagsOf .balance)) l toks) (ha : PlainArg a) :
    coinMain env g (w :: (toks.flatten ++ [a])) =
      (g.find a).bind fun acc => (balanceOut g.env g.compile g.view g.links g.fuel
        ⟨(lastSetting l (str "b")).bind env.date, (lastSetting l (str "e")).bind env.date, (lastSetting l (str "p")).getD [], (lastSetting l (str "t")).getD []⟩
        (((lastSetting l (str "l")).bind env.int).getD 0) (decide ((lastSetting l (str "z")).bind parseBool = some true)) acc).bind fun ls => .ok (textOf ls) := by
  unfold coinMain
  rw [dispatch_written hw h (.plain ha)]
  show (balanceMain env g l [a]).bind _ = _
  show ((g.find a).bind _).bind _ = _
  cases g.find a <;> rfl

/-- A ledger with an account of balance zero. -/
def cmdLedger : LedgerView where
  env := sampleEnv
  compile := fun _ => none
  view := balView
  print := regPView
  siblings := regSiblings
  tagKey := fun _ => []
  links := balLinks
  fuel := 5
  names := [str "A", str "A:B", str "A:C", rootName]
  matcher := fun p n => decide (p = n)
  order := id

def cmdFlags : FlagEnv := ⟨fun s => if s = str "1" then some 1 else none, fun s => if s = str "1999" then some 2 else none⟩

/-- What is printed without and with `-l 1`, and with `-l 1` behind the account. -/
theorem cmdSample :
    (coinMain cmdFlags cmdLedger [str "b", str "A"]).toOption = some (str " 0.00 |  0.10 CAD | A\n 0.12 |  0.12 CAD | A:B\n-0.02 | -0.02 CAD | A:C\n") ∧
    (coinMain cmdFlags cmdLedger [str "b", str "-l", str "1", str "A"]).toOption = some (str " 0.00 |  0.10 CAD | A\n") ∧
    (coinMain cmdFlags cmdLedger [str "b", str "A", str "-l", str "1"]).toOption =
      some (str " 0.00 |  0.10 CAD | A\n 0.12 |  0.12 CAD | A:B\n-0.02 | -0.02 CAD | A:C\n") := by
  refine ⟨?_, ?_, ?_⟩ <;> decide +kernel

theorem cmdWritten : List.Forall₂ (Written cmdFlags (flagsOf .balance)) [(str "l", str "1")] [[str "-l", str "1"]] :=
  .cons (.next (d := ['-']) (k := .int) (.inl rfl) (by decide) (by decide) (by decide)) .nil

/-- **C154** Flags behind the account are silently ignored. -/
theorem C154_flags_last_violated : ¬ C154_Statement := by
  intro h
  have := h cmdFlags cmdLedger .balance (str "b") (str "A") _ _ (by decide) cmdWritten (.inr (by decide))
  have e := congrArg Except.toOption this
  rw [show (coinMain cmdFlags cmdLedger (str "b" :: str "A" :: [[str "-l", str "1"]].flatten)) = coinMain cmdFlags cmdLedger [str "b", str "A", str "-l", str "1"] from rfl,
    show (coinMain cmdFlags cmdLedger (str "b" :: ([[str "-l", str "1"]].flatten ++ [str "A"]))) = coinMain cmdFlags cmdLedger [str "b", str "-l", str "1", str "A"] from rfl,
    cmdSample.2.1, cmdSample.2.2] at e
  exact absurd e (by decide)

/-- A boolean flag does not take the next argument: `-z false A` sets -z and asks for the account `false`. -/
example : (dispatch cmdFlags [str "b", str "-z", str "false", str "A"]).toOption = some (.balance, [(str "z", str "true")], [str "false", str "A"]) := by
  decide +kernel

/-! ## C155 -/

/-- **C155** The command may be left out: then it is balance. -/
def C155_Statement : Prop := ∀ (env : FlagEnv) (g : LedgerView) (argv : List Str), (∀ w rest, argv = w :: rest → commandOf w = none) →
  coinMain env g argv = coinMain env g (str "balance" :: argv)

/-- **C155 (partial)** Without any argument the balance of everything is printed. Missing: without a command but with flags or an account,
when nothing is printed. -/
theorem C155_default_partial (env : FlagEnv) (g : LedgerView) :
    coinMain env g [] = coinMain env g [str "balance"] ∧
    coinMain env g [] = (balanceOut g.env g.compile g.view g.links g.fuel ⟨none, none, [], []⟩ 0 false rootName).bind fun ls => .ok (textOf ls) :=
  ⟨rfl, rfl⟩

/-- **C155** Anything else but the name of a command in the first place ends the run without output. -/
theorem C155_unknown (env : FlagEnv) (g : LedgerView) (w : Str) (rest : List Str)
    (h : w ∉ [str "accounts", str "acc", str "a", str "balance", str "bal", str "b", str "commodities", str "com", str "c", str "format", str "fmt",
      str "f", str "modify", str "mod", str "m", str "register", str "reg", str "r", str "stats", str "s", str "tags", str "test", str "t",
      str "version", str "ver", str "v"]) : coinMain env g (w :: rest) = .error .exit := by
  have : commandOf w = none := by
    unfold commandOf
    rw [Option.map_eq_none_iff, List.find?_eq_none]
    intro e he
    simp only [decide_eq_true_eq]
    intro e'
    apply h
    rw [← e']
    have : ∀ e ∈ aliases, e.1 ∈ [str "accounts", str "acc", str "a", str "balance", str "bal", str "b", str "commodities", str "com", str "c", str "format", str "fmt",
      str "f", str "modify", str "mod", str "m", str "register", str "reg", str "r", str "stats", str "s", str "tags", str "test", str "t",
      str "version", str "ver", str "v"] := by decide
    exact this e he
  unfold coinMain dispatch
  simp only [List.headD_cons, this]
  rfl

/-- **C155** Flags without a command are refused. -/
theorem C155_default_violated : ¬ C155_Statement := by
  intro h
  have := h cmdFlags cmdLedger [str "-l", str "1"] (by intro w rest e; cases e; decide)
  have e := congrArg Except.toOption this
  exact absurd e (by decide +kernel)

/-- Two ways of writing the same: `C153_same_run` applies. -/
example : coinMain cmdFlags cmdLedger [str "bal", str "-z", str "--l=1", str "A"] = coinMain cmdFlags cmdLedger [str "b", str "-l", str "1", str "-z=T", str "--z", str "--", str "A"] := by
  refine C153_same_run cmdFlags cmdLedger .balance (str "bal") (str "b") [(str "z", str "true"), (str "l", str "1")] [(str "l", str "1"), (str "z", str "T"), (str "z", str "true")]
    [[str "-z"], [str "--l=1"]] [[str "-l", str "1"], [str "-z=T"], [str "--z"]] [str "A"] [str "--", str "A"] [str "A"] (by decide) (by decide) ?_ ?_
    (.plain (.inr (by decide))) .dashes ?_
  · exact .cons (.bare (d := ['-']) (.inl rfl) (by decide)) (.cons (.equals (d := ['-', '-']) (k := .int) (.inr rfl) (by decide) (by decide)) .nil)
  · exact .cons (.next (d := ['-']) (k := .int) (.inl rfl) (by decide) (by decide) (by decide))
      (.cons (.equals (d := ['-']) (k := .bool) (.inl rfl) (by decide) (by decide)) (.cons (.bare (d := ['-', '-']) (.inr rfl) (by decide)) .nil))
  · intro name
    by_cases h1 : name = str "z"
    · subst h1; decide
    · by_cases h2 : name = str "l"
      · subst h2; decide
      · have a : ¬ str "z" = name := fun e => h1 e.symm
        have b : ¬ str "l" = name := fun e => h2 e.symm
        simp [a, b]

end Verif
