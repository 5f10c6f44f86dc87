import Verif.Model.TestWrites
import Verif.Props.ModifyKeeps
/-
C186, C187: tests of `modify` and `format`.
-/
namespace Verif

theorem memLoop_load (m : Modify) : ∀ (ps : List PPost) (b : Bool), memLoop m b (ps.map fun p => (parseTags p.notes).toTags) ps = modifyLoop m b ps := by
  intro ps
  induction ps with
  | nil => intro b; rfl
  | cons p ps ih =>
    intro b
    show memLoop m b ((parseTags p.notes).toTags :: _) (p :: ps) = _
    unfold memLoop modifyLoop modifyStep ptagMatch
    dsimp only
    rw [ih]
    rfl

theorem memModify_load (m : Modify) (t : PTxn) : memModify m (MemTxn.load t) = { MemTxn.load t with txn := (modifyTxn m t).1 } := by
  have e : memLoop m false (MemTxn.load t).ptags (MemTxn.load t).txn.postings = modifyLoop m false t.postings := memLoop_load m t.postings false
  have hs : memSelects m (MemTxn.load t) = modifySelects m t := rfl
  unfold memModify modifyTxn
  rw [e, hs]
  cases h1 : modifySelects m t with
  | false => rfl
  | true =>
    rw [if_neg (show ¬ true = false by decide), if_neg (show ¬ true = false by decide)]
    by_cases h3 : m.source.isSome ∧ t.postings.all (fun p => decide (some p.account ≠ m.source))
    · dsimp only
      rw [if_pos (show m.source.isSome ∧ (MemTxn.load t).txn.postings.all (fun p => decide (some p.account ≠ m.source)) from h3), if_pos h3]
      rfl
    · dsimp only
      rw [if_neg (show ¬ (m.source.isSome ∧ (MemTxn.load t).txn.postings.all (fun p => decide (some p.account ≠ m.source))) from h3), if_neg h3]
      by_cases h4 : m.setTTag = []
      · rw [if_pos h4, if_pos h4]; rfl
      · rw [if_neg h4, if_neg h4]; rfl

theorem mem_texts (m : Modify) (ts : List PTxn) : ((ts.map MemTxn.load).map (memModify m)).map (·.txn) = ts.map fun t => (modifyTxn m t).1 := by
  rw [List.map_map, List.map_map]
  apply List.map_congr_left
  intro t _
  show (memModify m (MemTxn.load t)).txn = _
  rw [memModify_load]

theorem mem_trimmed (b : Bool) (ts : List PTxn) : ((ts.map MemTxn.load).map fun x => { x with txn := trimTxn b x.txn }).map (·.txn) = ts.map (trimTxn b) := by
  rw [List.map_map, List.map_map]
  rfl

/-! ## C187: a test shows what the command writes -/

/-- **C187** A test of `modify` on freshly loaded transactions prints what `modify` with the same flags writes into the file of these
transactions. -/
theorem C187_modify (fe : FlagEnv) (compile : Compile) (P : Install) (st l : LoadState) (accts : List Acct) (fn w : Str) (fl : List (Str × Str))
    (toks : List (List Str)) (ts : List PTxn) (m : Modify) (out : Str) (hw : commandOf w = some .modify)
    (hf : List.Forall₂ (Written fe (flagsOf .modify)) fl toks) (hl : loadFileS P.disk P.today P.limit st fn = .ok l)
    (hr : resolveP (formatEnv st accts) l.txns = .ok ts) (hm : modifyOf compile (accts.map (·.fullName)) fl = .ok m) :
    (∃ xs, memCommand fe compile (accts.map (·.fullName)) (fun a => (st.comOf accts a).decimals) (ts.map MemTxn.load) (w :: toks.flatten) = .ok (out, xs)) ↔
      ∃ r, modifyFile P m st accts fn = .ok r ∧ r.1.disk.read fn = some out := by
  have hd := dispatch_written (env := fe) (c := .modify) hw hf Remaining.nothing
  rw [List.append_nil] at hd
  unfold memCommand modifyFile
  rw [hd, hl]
  show (∃ xs, ((modifyOf compile (accts.map (·.fullName)) fl).bind _) = _) ↔ ∃ r, ((resolveP (formatEnv st accts) l.txns).bind _) = _ ∧ _
  rw [hm, hr]
  show (∃ xs, ((writeTxns _ (((ts.map MemTxn.load).map (memModify m)).map (·.txn))).bind _) = _) ↔ ∃ r, ((writeTxns _ _).bind _) = _ ∧ _
  rw [mem_texts]
  cases writeTxns (fun a => (st.comOf accts a).decimals) (ts.map fun t => (modifyTxn m t).1) with
  | error e =>
    constructor
    · rintro ⟨_, h⟩; cases h
    · rintro ⟨_, h, _⟩; cases h
  | ok lines =>
    constructor
    · rintro ⟨_, h⟩
      injection h with h
      injection h with h1 h2
      exact ⟨_, rfl, by rw [← h1]; exact if_pos rfl⟩
    · rintro ⟨r, h, e⟩
      injection h with h
      subst h
      have e : (if fn = fn then some (textOf lines) else P.disk.read fn) = some out := e
      rw [if_pos rfl] at e
      injection e with e
      exact ⟨_, by rw [← e]; rfl⟩

/-- **C187** A test of `format` on freshly loaded transactions prints what `format` with the same flags makes of a file of these
transactions. -/
theorem C187_format (fe : FlagEnv) (compile : Compile) (P : Install) (st l : LoadState) (accts : List Acct) (fn w : Str) (fl : List (Str × Str))
    (toks : List (List Str)) (ts : List PTxn) (out : Str) (hw : commandOf w = some .format)
    (hf : List.Forall₂ (Written fe (flagsOf .format)) fl toks) (hl : loadFileS P.disk P.today P.limit st fn = .ok l)
    (hr : resolveP (formatEnv st accts) l.txns = .ok ts) :
    (∃ xs, memCommand fe compile (accts.map (·.fullName)) (fun a => (st.comOf accts a).decimals) (ts.map MemTxn.load) (w :: toks.flatten) = .ok (out, xs)) ↔
      ∃ P' st', formatFile P (boolFlag fl (str "ledger")) false (boolFlag fl (str "t")) st accts fn = .ok (P', st', out) := by
  have hd := dispatch_written (env := fe) (c := .format) hw hf Remaining.nothing
  rw [List.append_nil] at hd
  unfold memCommand formatFile formatTxns
  rw [hd, hl]
  show (∃ xs, ((writeTxnsL _ _ (((ts.map MemTxn.load).map fun x => { x with txn := trimTxn (boolFlag fl (str "t")) x.txn }).map (·.txn))).bind _) = _) ↔
    ∃ P' st', (((resolveP (formatEnv st accts) l.txns).bind _).bind _) = _
  rw [mem_trimmed, hr]
  show _ ↔ ∃ P' st', ((writeTxnsL _ _ (ts.map (trimTxn (boolFlag fl (str "t"))))).bind _) = _
  cases writeTxnsL (boolFlag fl (str "ledger")) (fun a => (st.comOf accts a).decimals) (ts.map (trimTxn (boolFlag fl (str "t")))) with
  | error e =>
    constructor
    · rintro ⟨_, h⟩; cases h
    · rintro ⟨_, _, h⟩; cases h
  | ok lines =>
    constructor
    · rintro ⟨_, h⟩
      injection h with h
      injection h with h1 h2
      exact ⟨P, { l with items := l.items.filter fun i => (itemTxn i).isNone }, by rw [← h1]; rfl⟩
    · rintro ⟨P', st', h⟩
      injection h with h
      injection h with h1 h2
      injection h2 with h2 h3
      exact ⟨_, by rw [← h3]; rfl⟩

/-! ## C186: tests and the tests before them -/

/-- **C186**, full statement: every test prints what it would print if it were the only one. -/
def C186_Statement : Prop := ∀ (fe : FlagEnv) (compile : Compile) (names : List Str) (dec : Str → Nat) (ts : List PTxn) (cs : List (List Str)) (outs : List Str),
  memTests fe compile names dec (ts.map MemTxn.load) cs = .ok outs →
  List.Forall₂ (fun c out => ∃ xs, memCommand fe compile names dec (ts.map MemTxn.load) c = .ok (out, xs)) cs outs

/-- A test that changes nothing: `format` without `-t`, `modify` without a new account and without new tags. -/
def OnlyLooks (fe : FlagEnv) (argv : List Str) : Prop :=
  ∃ w c fl toks tail args, argv = w :: (toks.flatten ++ tail) ∧ commandOf w = some c ∧ List.Forall₂ (Written fe (flagsOf c)) fl toks ∧ Remaining tail args ∧
    ((c = .format ∧ boolFlag fl (str "t") = false) ∨
     (c = .modify ∧ textFlag fl (str "a:") [] = [] ∧ textFlag fl (str "pt:") [] = [] ∧ textFlag fl (str "tt:") [] = []))

theorem memLoop_same (m : Modify) (h1 : m.target = none) (h2 : m.setPTag = []) : ∀ (ps : List PPost) (tgs : List Tags) (b : Bool), (memLoop m b tgs ps).1 = ps := by
  have hp : ∀ p, (modifyPosting m p).1 = p := by
    intro p
    unfold modifyPosting
    rw [h1, h2]
    rfl
  intro ps
  induction ps with
  | nil => intro tgs b; cases tgs <;> rfl
  | cons p ps ih =>
    intro tgs b
    cases tgs with
    | nil => rfl
    | cons tg tgs =>
      unfold memLoop
      dsimp only
      rw [ih]
      congr 1
      have key : ∀ (c : Prop) [Decidable c] (r : PPost × Bool), r.1 = p → (if c then modifyPosting m r.1 else r).1 = p := by
        intro c _ r h
        split
        · rw [h]; exact hp p
        · exact h
      apply key
      split
      · exact hp p
      · rfl

theorem memModify_same (m : Modify) (h1 : m.target = none) (h2 : m.setPTag = []) (h3 : m.setTTag = []) (x : MemTxn) : memModify m x = x := by
  unfold memModify
  rw [memLoop_same m h1 h2, h3]
  split
  · rfl
  · split
    · rfl
    · rfl

theorem looks_same {fe : FlagEnv} {argv : List Str} (h : OnlyLooks fe argv) {compile : Compile} {names : List Str} {dec : Str → Nat} {xs xs' : List MemTxn}
    {out : Str} (hr : memCommand fe compile names dec xs argv = .ok (out, xs')) : xs' = xs := by
  obtain ⟨w, c, fl, toks, tail, args, rfl, hw, hf, hrem, h⟩ := h
  unfold memCommand at hr
  rw [dispatch_written hw hf hrem] at hr
  have hid : ∀ f : MemTxn → MemTxn, (∀ x, f x = x) → xs.map f = xs := fun f hf => by
    rw [show f = id from funext hf, List.map_id]
  rcases h with ⟨rfl, ht⟩ | ⟨rfl, ha, hp, htt⟩
  · cases args with
    | cons _ _ => cases hr
    | nil =>
      obtain ⟨_, _, h⟩ := bind_ok.mp (show (writeTxnsL _ _ _).bind _ = _ from hr)
      injection h with h
      injection h with _ h
      rw [← h, ht]
      exact hid _ (fun x => rfl)
  · cases args with
    | cons _ _ => cases hr
    | nil =>
      obtain ⟨m, hm, h⟩ := bind_ok.mp (show (modifyOf compile names fl).bind _ = _ from hr)
      obtain ⟨_, _, h⟩ := bind_ok.mp h
      injection h with h
      injection h with _ h
      obtain ⟨_, e2, _, _, _, e6, e7⟩ := modifyOf_ok hm
      rw [← h]
      refine hid _ (memModify_same m ?_ ?_ ?_)
      · rcases optArg_ok e2 with ⟨_, h⟩ | ⟨h, _⟩
        · exact h
        · exact absurd ha h
      · unfold tagArg at e6; rw [if_pos hp] at e6; injection e6 with e; exact e.symm
      · unfold tagArg at e7; rw [if_pos htt] at e7; injection e7 with e; exact e.symm

/-- **C186 (partial)** When all tests but the last change nothing, every test prints what it would print if it were the only one, and if
each of them alone succeeds, so do they together. -/
theorem C186_looking_partial (fe : FlagEnv) (compile : Compile) (names : List Str) (dec : Str → Nat) (xs : List MemTxn) : ∀ (cs : List (List Str)) (outs : List Str),
    (∀ c ∈ cs.dropLast, OnlyLooks fe c) →
    (memTests fe compile names dec xs cs = .ok outs ↔
      List.Forall₂ (fun c out => ∃ xs', memCommand fe compile names dec xs c = .ok (out, xs')) cs outs) := by
  intro cs
  induction cs with
  | nil =>
    intro outs _
    constructor
    · intro h
      cases h
      exact .nil
    · intro h
      cases h
      rfl
  | cons c cs ih =>
    intro outs hc
    have key : ∀ out xs', memCommand fe compile names dec xs c = .ok (out, xs') → cs ≠ [] → xs' = xs := by
      intro out xs' h hne
      exact looks_same (hc c (by rw [List.dropLast_cons_of_ne_nil hne]; simp)) h
    have hc' : ∀ c ∈ cs.dropLast, OnlyLooks fe c := by
      intro d hd
      have hne : cs ≠ [] := by rintro rfl; cases hd
      exact hc d (by rw [List.dropLast_cons_of_ne_nil hne]; exact List.mem_cons_of_mem _ hd)
    unfold memTests
    constructor
    · intro h
      obtain ⟨⟨out, xs'⟩, h1, h⟩ := bind_ok.mp h
      obtain ⟨l, h2, h⟩ := bind_ok.mp h
      cases h
      refine .cons ⟨xs', h1⟩ ?_
      by_cases hne : cs = []
      · subst hne
        cases h2
        exact .nil
      · have e := key out xs' h1 hne
        subst e
        exact (ih l hc').mp h2
    · intro h
      cases h with
      | cons h1 h2 =>
        next out l =>
        obtain ⟨xs', h1⟩ := h1
        refine bind_ok.mpr ⟨(out, xs'), h1, bind_ok.mpr ⟨l, ?_, rfl⟩⟩
        by_cases hne : cs = []
        · subst hne
          cases h2
          rfl
        · have e := key out xs' h1 hne
          subst e
          exact (ih l hc').mpr h2

/-- **C186** Without that: a test prints what it would print alone on the transactions as the tests before it left them. -/
theorem C186_in_order (fe : FlagEnv) (compile : Compile) (names : List Str) (dec : Str → Nat) : ∀ (before : List (List Str)) (c : List Str) (rest : List (List Str))
    (xs : List MemTxn) (outs : List Str), memTests fe compile names dec xs (before ++ c :: rest) = .ok outs →
    ∃ xs' out xs'', outs[before.length]? = some out ∧ memCommand fe compile names dec xs' c = .ok (out, xs'') ∧ xs'.map (·.tags) = xs.map (·.tags) ∧
      xs'.map (·.ptags) = xs.map (·.ptags) := by
  have keep : ∀ (xs : List MemTxn) (argv : List Str) (out : Str) (xs' : List MemTxn), memCommand fe compile names dec xs argv = .ok (out, xs') →
      xs'.map (·.tags) = xs.map (·.tags) ∧ xs'.map (·.ptags) = xs.map (·.ptags) := by
    intro xs argv out xs' h
    unfold memCommand at h
    obtain ⟨⟨c, fl, args⟩, _, h⟩ := bind_ok.mp h
    have hmod : ∀ m x, (memModify m x).tags = x.tags ∧ (memModify m x).ptags = x.ptags := by
      intro m x
      unfold memModify
      split
      · exact ⟨rfl, rfl⟩
      · dsimp only
        split
        · exact ⟨rfl, rfl⟩
        · split
          · exact ⟨rfl, rfl⟩
          · exact ⟨rfl, rfl⟩
    dsimp only at h
    split at h
    · obtain ⟨m, _, h⟩ := bind_ok.mp h
      obtain ⟨_, _, h⟩ := bind_ok.mp h
      injection h with h
      injection h with _ h
      subst h
      rw [List.map_map, List.map_map]
      exact ⟨List.map_congr_left fun x _ => (hmod m x).1, List.map_congr_left fun x _ => (hmod m x).2⟩
    · obtain ⟨_, _, h⟩ := bind_ok.mp h
      injection h with h
      injection h with _ h
      subst h
      rw [List.map_map, List.map_map]
      exact ⟨rfl, rfl⟩
    · cases h
  intro before
  induction before with
  | nil =>
    intro c rest xs outs h
    obtain ⟨⟨out, xs''⟩, h1, h⟩ := bind_ok.mp (show (memCommand fe compile names dec xs c).bind _ = _ from h)
    obtain ⟨l, _, h⟩ := bind_ok.mp h
    cases h
    exact ⟨xs, out, xs'', rfl, h1, rfl, rfl⟩
  | cons b before ih =>
    intro c rest xs outs h
    obtain ⟨⟨out0, xs0⟩, h1, h⟩ := bind_ok.mp (show (memCommand fe compile names dec xs b).bind _ = _ from h)
    obtain ⟨l, h2, h⟩ := bind_ok.mp h
    cases h
    obtain ⟨xs', out, xs'', e1, e2, e3, e4⟩ := ih c rest xs0 l h2
    obtain ⟨k1, k2⟩ := keep _ _ _ _ h1
    exact ⟨xs', out, xs'', by rw [List.length_cons, List.getElem?_cons_succ]; exact e1, e2, e3.trans k1, e4.trans k2⟩

/-- **C186** A test with `-tt` leaves alone every transaction whose tags, as they were when it was loaded, do not match, also when an
earlier test has added the tag. -/
theorem C186_tags_of_the_file (m : Modify) (f : TagMatcher) (x : MemTxn) (h : m.ttag = some f) (hx : f.matches x.tags = false) : memModify m x = x := by
  unfold memModify
  rw [if_pos]
  unfold memSelects
  rw [h]
  show (_ && f.matches x.tags) = false
  rw [hx, Bool.and_false]

/-! ## An example -/

def twTxns : List PTxn :=
  [⟨737425, [], str "Shop", [], [⟨str "Food", some ⟨350, progCad⟩, none, []⟩, ⟨str "Cash", some ⟨-350, progCad⟩, none, []⟩]⟩]
def twRun (cs : List (List Str)) : Except Fault (List Str) :=
  memTests cmdFlags (fun _ => none) [str "Food", str "Cash"] (fun _ => 2) (twTxns.map MemTxn.load) cs

def twPlain : Str := str "2020/01/02 Shop\n  Food   3.50 CAD\n  Cash  -3.50 CAD\n\n"
def twTagged : Str := str "2020/01/02 Shop ; #paid\n  Food   3.50 CAD\n  Cash  -3.50 CAD\n\n"

/-- A test that tags the transaction changes what the next one prints. -/
theorem tw_after : twRun [[str "modify", str "--tt:=#paid"], [str "format"]] = .ok [twTagged, twTagged] := ok_of_opt (by decide +kernel)
theorem tw_alone : twRun [[str "format"]] = .ok [twPlain] := ok_of_opt (by decide +kernel)
/-- Tests that only look. -/
theorem tw_looks : twRun [[str "modify"], [str "format", str "-ledger"], [str "modify", str "--tt:=#paid"]] = .ok [twPlain, twPlain, twTagged] :=
  ok_of_opt (by decide +kernel)

/-- The hypotheses of `C186_looking_partial` are met. -/
example : ∀ c ∈ [[str "modify"], [str "format", str "-ledger"], [str "modify", str "--tt:=#paid"]].dropLast, OnlyLooks cmdFlags c := by
  intro c hc
  rcases List.mem_cons.mp hc with rfl | hc
  · exact ⟨str "modify", .modify, [], [], [], [], rfl, by decide +kernel, .nil, .nothing, .inr ⟨rfl, rfl, rfl, rfl⟩⟩
  · rcases List.mem_cons.mp hc with rfl | hc
    · exact ⟨str "format", .format, [(str "ledger", str "true")], [[str "-ledger"]], [], [], rfl, by decide +kernel,
        .cons (.bare (d := ['-']) (by unfold Dashes; decide) (by decide)) .nil, .nothing, .inl ⟨rfl, by decide +kernel⟩⟩
    · cases hc

/-- **C186 (violated)**: `modify` in a test changes what `format` in a later test prints. -/
theorem C186_independent_violated : ¬ C186_Statement := by
  intro h
  have h := h _ _ _ _ _ _ _ tw_after
  cases h with
  | cons _ h =>
    cases h with
    | cons h _ =>
      obtain ⟨xs, h⟩ := h
      have h' := (C186_looking_partial cmdFlags (fun _ => none) [str "Food", str "Cash"] (fun _ => 2) (twTxns.map MemTxn.load) [[str "format"]] [twPlain]
        (fun _ hc => by cases hc)).mp tw_alone
      cases h' with
      | cons h1 _ =>
      obtain ⟨xs1, h1⟩ := h1
      have h4 := h.symm.trans h1
      injection h4 with h4
      injection h4 with h4 _
      have h4 : twTagged = twPlain := h4
      exact absurd h4 (by unfold twTagged twPlain; decide +kernel)

end Verif
