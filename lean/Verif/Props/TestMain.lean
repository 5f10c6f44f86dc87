import Verif.Model.TestMain
import Verif.Props.TestCmd
import Verif.Props.ReportComs
/-
C174: `coin test` with the commands its tests run.
-/
namespace Verif

/-! ## Specification -/

/-- The words of the command line of the test. -/
abbrev CTest.argv (t : CTest) : List Str := scanWords [] t.cmd

/-- On the ledger the command line prints this (and it is not the test command again). -/
def Prints (fe : FlagEnv) (T : LedgerAll) (argv : List Str) (out : Str) : Prop := ∀ nested, executeCmd fe T nested argv = .ok out

/-- The report on a test with its result: passed exactly if the result is what the command line prints. -/
def testLine (diff : Str → Str → Str) (t : CTest) (out : Str) : Str :=
  if t.result = out then str "OK " ++ t.location ++ str " " ++ t.cmd ++ str "\n"
  else str "FAIL " ++ t.location ++ str " " ++ t.cmd ++ str "\n" ++ diff t.result out

/-! ## Running -/

theorem prints_head {fe : FlagEnv} {T : LedgerAll} {argv : List Str} {out : Str} (h : Prints fe T argv out) (hne : argv ≠ []) :
    ∃ w ws, argv = w :: ws ∧ (commandOf w).isSome = true := by
  obtain ⟨w, ws, rfl⟩ := List.exists_cons_of_ne_nil hne
  refine ⟨w, ws, rfl, ?_⟩
  have := h (fun _ => .error .loop)
  unfold executeCmd dispatch at this
  cases hc : commandOf w with
  | none => simp only [List.headD_cons, hc] at this; cases this
  | some c => rfl

theorem testEnv_succ (fe : FlagEnv) (T : LedgerAll) (diff : Str → Str → Str) (d : Dir) (tests : List CTest) (n : Nat) :
    testEnv fe T diff d tests (n + 1) = ⟨fun w => (commandOf w).isSome, fun _ argv => executeCmd fe T
      (fun v => (testExecute (testEnv fe T diff d tests n) v d tests).bind fun r => .ok r.out.flatten) argv, diff⟩ := by
  rw [testEnv]

theorem outputs_of_prints {fe : FlagEnv} {T : LedgerAll} {diff : Str → Str → Str} {d : Dir} {tests : List CTest} {n : Nat} {ts : List CTest} {os : List Str} (k : Nat)
    (h : List.Forall₂ (fun (t : CTest) o => t.argv ≠ [] ∧ Prints fe T t.argv o) ts os) : Outputs (testEnv fe T diff d tests (n + 1)) k ts os := by
  induction h generalizing k with
  | nil => trivial
  | @cons t o ts os h _ ih =>
    refine ⟨?_, ih _⟩
    obtain ⟨w, ws, e, hc⟩ := prints_head h.2 h.1
    rw [testEnv_succ]
    refine ⟨w, ws, e, hc, ?_⟩
    have hp := h.2 (fun v => (testExecute (testEnv fe T diff d tests n) v d tests).bind fun r => .ok r.out.flatten)
    first
      | exact hp
      | (rw [show t.argv = w :: ws from e] at hp; exact hp)

/-- With results for all tests nothing is written and the run ends. -/
theorem full_run {env : TestEnv} {v : Bool} (ts : List CTest) (os : List Str) (k : Nat) (s : TestRun) (ho : Outputs env k ts os) (hr : ∀ t ∈ ts, t.result ≠ [])
    (hs : s.toUpdate = []) : ∃ r, testLoopRun env v k s ts = .ok r ∧ r.files = s.files := by
  induction ts generalizing os k s with
  | nil =>
    have : testLoopRun env v k s [] = .ok (if v then s else { s with out := s.out ++ [(if s.success then str "OK" else str "FAIL") ++ ' ' :: s.last ++ ['\n']] }) := by
      unfold testLoopRun testEnd TestRun.flush
      rw [if_pos hs]; rfl
    exact ⟨_, this, by split <;> rfl⟩
  | cons t ts ih =>
    cases os with
    | nil => exact ho.elim
    | cons o os =>
      obtain ⟨⟨w, ws, e, ha, hrun⟩, ho⟩ := ho
      have hmv : ∃ s', testMove s t = .ok s' ∧ s'.toUpdate = [] ∧ s'.files = s.files := by
        unfold testMove
        split
        · unfold TestRun.flush; dsimp only; rw [if_pos hs]; exact ⟨_, rfl, hs, rfl⟩
        · exact ⟨s, rfl, hs, rfl⟩
      obtain ⟨s', h1, h2, h3⟩ := hmv
      have hv : (testVerdict env v (if fileOf t ≠ s.last then s.last else []) s' t o).toUpdate = [] := by
        rw [verdict_pending, h2, pending_cons, if_neg (hr t (by simp))]; rfl
      obtain ⟨r, h4, h5⟩ := ih os (k + 1) _ ho (fun t ht => hr t (by simp [ht])) hv
      refine ⟨r, ?_, by rw [h5, verdict_files, h3]⟩
      rw [testLoopRun, h1]
      show (match scanWords [] t.cmd with | [] => _ | w :: ws => _) = _
      rw [e]
      dsimp only
      rw [if_pos ha, hrun]
      exact h4

theorem test_dispatch {fe : FlagEnv} {w : Str} {l : List (Str × Str)} {toks : List (List Str)} {tail args : List Str} (hw : commandOf w = some .test)
    (hl : List.Forall₂ (Written fe (flagsOf .test)) l toks) (ht : Remaining tail args) (T : LedgerAll) (diff : Str → Str → Str) (d : Dir) (tests : List CTest) (n : Nat) :
    testMain fe T diff d tests n (w :: (toks.flatten ++ tail)) =
      (testExecute (testEnv fe T diff d tests n) (boolFlag l (str "v")) d tests).bind fun s => .ok (s.out.flatten, s.files) := by
  unfold testMain
  rw [dispatch_written hw hl ht]; rfl

/-! ## C174 -/

/-- **C174** On the ledger of a file, `coin test -v FILE` reports on every test of the file and of those it includes, in order: OK exactly if
the recorded text is what the command line of the test prints on this ledger, otherwise FAIL and the difference. No file is changed. -/
theorem C174_report (P : Install) (compile : Compile) (T : LedgerAll) (tests : List CTest) (fn : Str) (rest : List Str) (_hO : TestOpened P compile fn T tests)
    (fe : FlagEnv) (w : Str) (l : List (Str × Str)) (toks : List (List Str)) (tail : List Str) (hw : commandOf w = some .test)
    (hl : List.Forall₂ (Written fe (flagsOf .test)) l toks) (ht : Remaining tail (fn :: rest)) (hv : boolFlag l (str "v") = true)
    (diff : Str → Str → Str) (d : Dir) (n : Nat) (os : List Str)
    (hos : List.Forall₂ (fun (t : CTest) o => t.argv ≠ [] ∧ Prints fe T t.argv o) tests os) (hr : ∀ t ∈ tests, t.result ≠ []) :
    testMain fe T diff d tests (n + 1) (w :: (toks.flatten ++ tail)) = .ok ((tests.zip os).flatMap fun p => testLine diff p.1 p.2, d) := by
  rw [test_dispatch hw hl ht, hv]
  have ho := outputs_of_prints (diff := diff) (d := d) (tests := tests) (n := n) 0 hos
  have hrun : ∃ r, testExecute (testEnv fe T diff d tests (n + 1)) true d tests = .ok r ∧ r.files = d := by
    unfold testExecute
    generalize testEnv fe T diff d tests (n + 1) = env at ho
    cases tests with
    | nil => exact ⟨_, rfl, rfl⟩
    | cons t ts => exact full_run (t :: ts) os 0 _ ho hr rfl
  obtain ⟨r, h1, h2⟩ := hrun
  have h3 := C94_verbose _ _ _ _ _ ho h1
  rw [h1]
  show Except.ok (r.out.flatten, r.files) = _
  rw [h2, h3]
  have hz : ∀ p ∈ tests.zip os, p.1.result ≠ [] := fun p hp => hr _ (List.of_mem_zip hp).1
  clear ho h3 h1 h2 hos
  rw [testEnv_succ]
  congr 2
  generalize tests.zip os = z at hz
  induction z with
  | nil => rfl
  | cons p z ih =>
    simp only [List.map_cons, List.flatten_cons, List.flatMap_cons, List.flatten_append]
    rw [ih (fun q hq => hz q (by simp [hq]))]
    congr 1
    unfold report testLine
    rw [if_neg (hz p (by simp))]
    by_cases h : p.2 = p.1.result
    · rw [if_pos h, if_pos h.symm]; simp [str]
    · rw [if_neg h, if_neg (fun e => h e.symm)]; simp [str]

/-- **C174** Without -v, for a file that includes no tests of others: the failing tests as above, then OK if there are none, otherwise FAIL. -/
theorem C174_verdict (P : Install) (compile : Compile) (T : LedgerAll) (tests : List CTest) (fn : Str) (rest : List Str) (_hO : TestOpened P compile fn T tests)
    (fe : FlagEnv) (w : Str) (l : List (Str × Str)) (toks : List (List Str)) (tail : List Str) (hw : commandOf w = some .test)
    (hl : List.Forall₂ (Written fe (flagsOf .test)) l toks) (ht : Remaining tail (fn :: rest)) (hv : boolFlag l (str "v") = false)
    (diff : Str → Str → Str) (d : Dir) (n : Nat) (os : List Str)
    (hos : List.Forall₂ (fun (t : CTest) o => t.argv ≠ [] ∧ Prints fe T t.argv o) tests os) (hr : ∀ t ∈ tests, t.result ≠ []) (hne : tests ≠ [])
    (hc : ':' ∉ fn) (hfn : ∀ t ∈ tests, t.file = fn) :
    testMain fe T diff d tests (n + 1) (w :: (toks.flatten ++ tail)) =
      .ok (((tests.zip os).filter fun p => decide (p.1.result ≠ p.2)).flatMap (fun p => testLine diff p.1 p.2) ++
        (if tests.map (·.result) = os then str "OK " else str "FAIL ") ++ fn ++ str "\n", d) := by
  rw [test_dispatch hw hl ht, hv]
  have ho := outputs_of_prints (diff := diff) (d := d) (tests := tests) (n := n) 0 hos
  have hlen := outputs_length ho
  have hrun : ∃ r, testExecute (testEnv fe T diff d tests (n + 1)) false d tests = .ok r ∧ r.files = d := by
    unfold testExecute
    generalize testEnv fe T diff d tests (n + 1) = env at ho
    cases tests with
    | nil => exact ⟨_, rfl, rfl⟩
    | cons t ts => exact full_run (t :: ts) os 0 _ ho hr rfl
  obtain ⟨r, h1, h2⟩ := hrun
  have h3 := C94_verdict_partial _ _ fn _ _ _ hne hc hfn ho h1
  rw [h1]
  show Except.ok (r.out.flatten, r.files) = _
  rw [h2, h3, testEnv_succ]
  have hz : ∀ p ∈ tests.zip os, p.1.result ≠ [] := fun p hp => hr _ (List.of_mem_zip hp).1
  have hall : tests.map (·.result) = os ↔ ∀ p ∈ tests.zip os, p.1.result = p.2 := by
    clear h3 h1 h2 ho hos hz hne hr hfn _hO
    induction tests generalizing os with
    | nil => cases os with
      | nil => simp
      | cons => cases hlen
    | cons t ts ih => cases os with
      | nil => cases hlen
      | cons o os => simp [ih os (by simpa using hlen)]
  have hfail : ∀ z : List (CTest × Str), (∀ p ∈ z, p.1.result ≠ []) →
      ((z.filter (fun p : CTest × Str => decide (p.1.result ≠ [] ∧ p.2 ≠ p.1.result))).map
        (fun p => str "FAIL " ++ p.1.location ++ ' ' :: p.1.cmd ++ ['\n'] ++ diff p.1.result p.2)) =
      (z.filter fun p => decide (p.1.result ≠ p.2)).map (fun p => testLine diff p.1 p.2) := by
    intro z
    induction z with
    | nil => intro _; rfl
    | cons p z ih =>
      intro hz
      have hp := hz p (by simp)
      rw [List.filter_cons, List.filter_cons]
      by_cases h : p.2 = p.1.result
      · rw [if_neg (by simp [h]), if_neg (by simp [h]), ih (fun q hq => hz q (by simp [hq]))]
      · have h' : p.1.result ≠ p.2 := fun e => h e.symm
        rw [if_pos (by simp [h, hp]), if_pos (by simp [h']), List.map_cons, List.map_cons, ih (fun q hq => hz q (by simp [hq]))]
        congr 1
        unfold testLine
        rw [if_neg h']; simp [str]
  congr 2
  have hempty : (List.map (fun p : CTest × Str => testLine diff p.1 p.2) (List.filter (fun p => decide (p.1.result ≠ p.2)) (tests.zip os)) = []) ↔ tests.map (·.result) = os := by
    rw [hall, List.map_eq_nil_iff, List.filter_eq_nil_iff]; simp
  unfold failures verdictLine
  dsimp only
  rw [hfail _ hz, List.flatten_append, ← List.flatMap_def, List.flatten_cons, List.flatten_nil, List.append_nil]
  by_cases h : tests.map (·.result) = os
  · rw [if_pos h, decide_eq_true (hempty.mpr h)]; simp [str]
  · rw [if_neg h, decide_eq_false (fun e => h (hempty.mp e))]; simp [str]

/-- **C174** A test without a result gets the text its command line prints on this ledger, written below its first line; the tests of a file
follow each other (see C93). -/
theorem C174_filled (P : Install) (compile : Compile) (T : LedgerAll) (tests : List CTest) (fn : Str) (rest : List Str) (_hO : TestOpened P compile fn T tests)
    (fe : FlagEnv) (w : Str) (l : List (Str × Str)) (toks : List (List Str)) (tail : List Str) (hw : commandOf w = some .test)
    (hl : List.Forall₂ (Written fe (flagsOf .test)) l toks) (ht : Remaining tail (fn :: rest)) (diff : Str → Str → Str) (d : Dir) (n : Nat) (os : List Str)
    (hos : List.Forall₂ (fun (t : CTest) o => t.argv ≠ [] ∧ Prints fe T t.argv o) tests os)
    (hd : ∀ t ∈ tests, ':' ∉ t.file ∧ ∃ text, d t.file = some text ∧ InFile t.file text (tests.filter (fun u => u.file = t.file))) (hcon : Consecutive tests) :
    ∃ out d', testMain fe T diff d tests (n + 1) (w :: (toks.flatten ++ tail)) = .ok (out, d') ∧ ∀ x, d' x = filled x tests os (d x) := by
  rw [test_dispatch hw hl ht]
  obtain ⟨r, h1, h2⟩ := C93_results_partial _ (boolFlag l (str "v")) d tests os (outputs_of_prints (diff := diff) (d := d) (tests := tests) (n := n) 0 hos) hd hcon
  exact ⟨_, _, by rw [h1]; rfl, h2⟩

/-- **C174** What a test runs is what the command prints by itself: on a ledger whose files give the same items, `coin` with the command line
of a test prints the text the test is compared with. (Both are read in the same order of maps; `accounts` and `commodities` read fewer files
when they run by themselves, see C170 and C173.) -/
theorem C174_alone (P : Install) (compile : Compile) (st : LoadState) (T : LedgerAll) (h : Resolves compile st T)
    (hl : loadAllS P.disk P.today P.limit P.files ⟨[], str "CAD", []⟩ = .ok st) :
    Opened P compile st T.accts T.view ∧ LoadedAs P st T.accts T.view.env T.fin T.sorted ∧ ∀ fe argv out,
      (coinMain fe T.view argv = .ok out → Prints fe T argv out) ∧
      (tagsMain fe compile T.keys T.fin T.sorted argv = .ok out → Prints fe T argv out) ∧
      (statsMain fe st T.accts T.view.env T.fin T.sorted T.txnLoc argv = .ok out → Prints fe T argv out) := by
  obtain ⟨hst, items, db, ord, fuel, L, walk, bound, location, order, h1, h2, h3, h4, h5, h6, h7, h8, h9, h10, h11⟩ := h
  have henv : T.view.env = Env.ofAccounts T.accts (st.comOf T.accts) patternMatches (convWith db ord fuel) := by rw [h11]; rfl
  have hcomp : T.view.compile = compile := by rw [h11]; rfl
  refine ⟨⟨hl, items, db, ord, fuel, L, walk, T.fin, T.sorted, bound, location, order, h1, h2, h3, h4, h5, h6, h7, h8, h9, h11⟩,
    ⟨hl, items, db, ord, fuel, L, walk, h1, h2, h3, h4, h5, h6, h7, henv, henv ▸ h8⟩, ?_⟩
  intro fe argv out
  refine ⟨?_, ?_, ?_⟩
  · intro h nested
    unfold coinMain at h
    obtain ⟨r, hr, h⟩ := bind_ok.mp h
    unfold executeCmd
    rw [hr]
    obtain ⟨c, l, args⟩ := r
    cases c <;> dsimp only at h ⊢ <;> try (cases h; done)
    · exact h
    · unfold registerMain at h
      unfold registerExecute
      cases args with
      | nil => cases h
      | cons a args =>
        dsimp only at h
        split at h
        · cases h
        · exact h
  · intro h nested
    have h' := h
    unfold tagsMain at h
    obtain ⟨r, hr, h⟩ := bind_ok.mp h
    unfold executeCmd
    rw [hr]
    obtain ⟨c, l, args⟩ := r
    cases c <;> dsimp only at h ⊢ <;> try (cases h; done)
    show tagsMain fe T.view.compile T.keys T.fin T.sorted argv = _
    rw [hcomp]; exact h'
  · intro h nested
    have h' := h
    unfold statsMain at h
    obtain ⟨r, hr, h⟩ := bind_ok.mp h
    unfold executeCmd
    rw [hr]
    obtain ⟨c, l, args⟩ := r
    cases c <;> dsimp only at h ⊢ <;> try (cases h; done)
    show statsMain fe T.st T.accts T.view.env T.fin T.sorted T.txnLoc argv = _
    rw [hst]; exact h'

/-- A test that runs the tests never ends: no depth of nesting suffices. -/
theorem C174_nested (fe : FlagEnv) (T : LedgerAll) (diff : Str → Str → Str) (d : Dir) (tests : List CTest) (before after : List CTest) (t : CTest)
    (he : tests = before ++ t :: after) (hb : ∀ u ∈ before, ∃ w ws, u.argv = w :: ws ∧ (commandOf w).isSome = true)
    (ht : ∃ w ws, t.argv = w :: ws ∧ commandOf w = some .test) (n : Nat) (argv : List Str) (r : Str × Dir) : testMain fe T diff d tests n argv ≠ .ok r := by
  have loop : ∀ (env : TestEnv) (v : Bool), (∀ w, env.aliases w = (commandOf w).isSome) → (∀ k r, env.run k t.argv ≠ .ok r) →
      ∀ (before : List CTest), (∀ u ∈ before, ∃ w ws, u.argv = w :: ws ∧ (commandOf w).isSome = true) →
      ∀ (k : Nat) (s r : TestRun), testLoopRun env v k s (before ++ t :: after) ≠ .ok r := by
    intro env v ha hr before
    induction before with
    | nil =>
      intro _ k s r h
      rw [List.nil_append, testLoopRun] at h
      obtain ⟨s', _, h⟩ := bind_ok.mp h
      obtain ⟨w, ws, e, hc⟩ := ht
      have e' : scanWords [] t.cmd = w :: ws := e
      rw [e'] at h
      dsimp only at h
      rw [if_pos (by rw [ha, hc]; rfl)] at h
      obtain ⟨b, hb, _⟩ := bind_ok.mp h
      rw [← e'] at hb
      exact hr _ _ hb
    | cons u before ih =>
      intro hb k s r h
      rw [List.cons_append, testLoopRun] at h
      obtain ⟨s', _, h⟩ := bind_ok.mp h
      obtain ⟨w, ws, e, hc⟩ := hb u (by simp)
      have e' : scanWords [] u.cmd = w :: ws := e
      rw [e'] at h
      dsimp only at h
      rw [if_pos (by rw [ha, hc])] at h
      obtain ⟨b, _, h⟩ := bind_ok.mp h
      exact ih (fun x hx => hb x (by simp [hx])) _ _ _ h
  have main : ∀ n v r, testExecute (testEnv fe T diff d tests n) v d tests ≠ .ok r := by
    intro n
    induction n with
    | zero =>
      intro v r h
      unfold testExecute at h
      subst he
      cases hb' : before ++ t :: after with
      | nil => simp at hb'
      | cons x xs =>
        rw [hb'] at h
        dsimp only at h
        rw [← hb'] at h
        exact loop _ v (fun _ => by rw [testEnv]) (fun k r h => by rw [testEnv] at h; cases h) before hb _ _ _ h
    | succ n ih =>
      intro v r h
      unfold testExecute at h
      have hx : ∃ x xs, tests = x :: xs := by
        cases before with
        | nil => exact ⟨t, after, he⟩
        | cons x xs => exact ⟨x, xs ++ t :: after, he⟩
      obtain ⟨x, xs, hx⟩ := hx
      have h' : testLoopRun (testEnv fe T diff d tests (n + 1)) v 0 ⟨[], [], true, fileOf x, d⟩ (before ++ t :: after) = .ok r := by
        rw [← he]
        generalize testEnv fe T diff d tests (n + 1) = env at h ⊢
        rw [hx] at h ⊢
        exact h
      refine loop _ v (fun _ => by rw [testEnv_succ]) ?_ before hb _ _ _ h'
      intro k r hr
      rw [testEnv_succ] at hr
      dsimp only at hr
      obtain ⟨w, ws, e, hc⟩ := ht
      rw [e] at hr
      unfold executeCmd at hr
      obtain ⟨q, hq, hr⟩ := bind_ok.mp hr
      unfold dispatch at hq
      simp only [List.headD_cons, hc] at hq
      obtain ⟨_, _, hq⟩ := bind_ok.mp hq
      cases hq
      dsimp only at hr
      obtain ⟨_, h3, _⟩ := bind_ok.mp hr
      exact ih _ _ h3
  intro h
  unfold testMain at h
  obtain ⟨q, hq, h⟩ := bind_ok.mp h
  obtain ⟨c, l, args⟩ := q
  cases c <;> dsimp only at h <;> try (cases h; done)
  obtain ⟨_, h3, _⟩ := bind_ok.mp h
  exact main _ _ _ h3

/-! ### A file with tests -/

def tryText : Str := str "commodity CAD\n  format 1.00 CAD\n\naccount Assets:Cash\naccount Food\n\n2020/01/05 Shop\n  Food  3.50 CAD\n  Cash\n\ntest tags\nnone\nend test\n\ntest stats\nCommodities: 1\nPrices: 0\nAccounts: 5\nTransactions: 1\nend test\n"

def tryInstall : Install := ⟨dirDisk [(str "a.test", tryText)], ⟨2020, 1, 1⟩, 5, ledgerNames⟩

def tryTxns : List PTxn := [⟨737428, [], str "Shop", [], [⟨str "Food", some ⟨350, tagCad⟩, none, []⟩, ⟨str "Cash", none, none, []⟩]⟩]

def tryState : LoadState := ⟨[tagCad], str "CAD",
  [.commodity ⟨str "CAD", [], 2, false, []⟩, .account ⟨str "Assets:Cash", [], str "CAD", none, [], [], []⟩,
   .account ⟨str "Food", [], str "CAD", none, [], [], []⟩] ++ tryTxns.map .transaction ++
   [.test (str "tags") (str "none\n"), .test (str "stats") (str "Commodities: 1\nPrices: 0\nAccounts: 5\nTransactions: 1\n")]⟩

theorem try_loads : loadFileS tryInstall.disk tryInstall.today tryInstall.limit ⟨[], str "CAD", []⟩ (str "a.test") = .ok tryState :=
  load_eq (by decide +kernel)

def tryTags : CTest := ⟨str "tags", str "none\n", 11, str "a.test"⟩
def tryStats : CTest := ⟨str "stats", str "Commodities: 1\nPrices: 0\nAccounts: 5\nTransactions: 1\n", 15, str "a.test"⟩
def tryTests : List CTest := [tryTags, tryStats]

theorem try_located : testsOf tryInstall.today (str "a.test") ⟨[], str "CAD", []⟩ tryText = tryTests := by decide +kernel

theorem try_tags (diff : Str → Str → Str) : testLine diff tryTags [] = str "FAIL a.test:11 tags\n" ++ diff (str "none\n") [] := by
  have h : str "FAIL " ++ tryTags.location ++ str " " ++ tryTags.cmd ++ str "\n" = str "FAIL a.test:11 tags\n" := by decide +kernel
  unfold testLine
  rw [if_neg (by decide), h]; rfl

theorem try_stats (diff : Str → Str → Str) : testLine diff tryStats (str "Commodities: 1\nPrices: 0\nAccounts: 5\nTransactions: 1\n") = str "OK a.test:15 stats\n" := by
  have h : str "OK " ++ tryStats.location ++ str " " ++ tryStats.cmd ++ str "\n" = str "OK a.test:15 stats\n" := by decide +kernel
  unfold testLine
  rw [if_pos (by rfl), h]

theorem try_links : ∃ L, ResolvedAccounts tryState.dflt tryState.decls (plainAccts tryState) L := by
  obtain ⟨L0, h0⟩ := C20_linking_succeeds tryState.dflt tryState.decls (baseAccounts tryState.dflt tryState.decls) _ 0 (List.Perm.refl _) (List.Perm.refl _)
  exact ⟨⟨L0.parent, fun p => stableSort (fun a b => strLt (parentAndName a).2 (parentAndName b).2) (L0.children p)⟩, _, _, 0, L0, List.Perm.refl _, rfl,
    List.Perm.refl _, h0, rfl, fun p => ⟨stableSort_perm _ _, stableSort_sorted _ (strLt_strictWeak.comap _) _⟩⟩

def tryLedger (L : Links) (fin : Loaded) (sorted : List Txn) : LedgerAll :=
  ⟨ledgerView (plainEnv tryState) (fun _ => none) L fin (txnsFrom 0 tryState.txns) 20 (fun _ => []) id, tryState, plainAccts tryState, fin, sorted, fun _ => [], id,
    fun _ => [], fun _ => [], []⟩

theorem prints_of {fe : FlagEnv} {T : LedgerAll} {argv : List Str} {out : Str} (h : executeCmd fe T (fun _ => .error .loop) argv = .ok out) : Prints fe T argv out := by
  intro nested
  unfold executeCmd at h ⊢
  obtain ⟨r, hr, h⟩ := bind_ok.mp h
  rw [hr]
  obtain ⟨c, l, args⟩ := r
  cases c <;> first | exact h | cases h

theorem try_prints : ∃ fin sorted, resolveTransactions (plainEnv tryState) (heapOf tryState.txns) (txnsFrom 0 tryState.txns) ((plainAccts tryState).map (·.fullName)) = .ok (fin, sorted) ∧
    (tagsMain cmdFlags (fun _ => none) id fin sorted [str "tags"]).toOption = some [] ∧
    (statsMain cmdFlags tryState (plainAccts tryState) (plainEnv tryState) fin sorted (fun _ => []) [str "stats"]).toOption =
      some (str "Commodities: 1\nPrices: 0\nAccounts: 5\nTransactions: 1\n") := by
  have h : ((resolveTransactions (plainEnv tryState) (heapOf tryState.txns) (txnsFrom 0 tryState.txns) ((plainAccts tryState).map (·.fullName))).toOption.map fun r =>
      ((tagsMain cmdFlags (fun _ => none) id r.1 r.2 [str "tags"]).toOption,
       (statsMain cmdFlags tryState (plainAccts tryState) (plainEnv tryState) r.1 r.2 (fun _ => []) [str "stats"]).toOption)) =
      some (some [], some (str "Commodities: 1\nPrices: 0\nAccounts: 5\nTransactions: 1\n")) := by decide +kernel
  cases hx : resolveTransactions (plainEnv tryState) (heapOf tryState.txns) (txnsFrom 0 tryState.txns) ((plainAccts tryState).map (·.fullName)) with
  | error e => rw [hx] at h; cases h
  | ok r =>
    rw [hx] at h
    have h := Option.some.inj h
    exact ⟨r.1, r.2, rfl, congrArg Prod.fst h, congrArg Prod.snd h⟩

set_option maxRecDepth 100000 in
set_option maxHeartbeats 1000000 in
/-- Non-vacuity of C174: the file loads; one of its two tests fails. -/
example (diff : Str → Str → Str) (d : Dir) : ∃ T, TestOpened tryInstall (fun _ => none) (str "a.test") T tryTests ∧
    testMain cmdFlags T diff d tryTests 1 [str "test", str "-v", str "a.test"] =
      .ok (str "FAIL a.test:11 tags\n" ++ diff (str "none\n") [] ++ str "OK a.test:15 stats\n", d) ∧
    testMain cmdFlags T diff d tryTests 1 [str "test", str "a.test"] =
      .ok (str "FAIL a.test:11 tags\n" ++ diff (str "none\n") [] ++ str "FAIL a.test\n", d) := by
  obtain ⟨L, hL⟩ := try_links
  obtain ⟨fin, sorted, hr, h1, h2⟩ := try_prints
  have hT : TestOpened tryInstall (fun _ => none) (str "a.test") (tryLedger L fin sorted) tryTests := by
    refine ⟨try_loads, ⟨rfl, [], fun _ => [], fun _ _ => [], 1, L, _, 20, fun _ => [], id, rfl, fun _ => .nil, fun _ _ => .refl _, ?_, hL,
      by show ∀ a ∈ plainAccts tryState, (tryState.comFor a).isSome = true; decide +kernel, List.Perm.refl _, hr, by show ∀ a ∈ plainAccts tryState, _; decide +kernel, fun _ => .refl _, rfl⟩,
      by show _ = tryState.items.filterMap itemTest; decide +kernel⟩
    intro c x; unfold convert; simp only [convertF]; split <;> rfl
  have hos : List.Forall₂ (fun (t : CTest) o => t.argv ≠ [] ∧ Prints cmdFlags (tryLedger L fin sorted) t.argv o) tryTests
      [[], str "Commodities: 1\nPrices: 0\nAccounts: 5\nTransactions: 1\n"] := by
    refine .cons ⟨by decide, prints_of ?_⟩ (.cons ⟨by decide, prints_of ?_⟩ .nil)
    · show tagsMain cmdFlags (fun _ => none) id fin sorted [str "tags"] = _
      exact ok_of_opt h1
    · show statsMain cmdFlags tryState (plainAccts tryState) (plainEnv tryState) fin sorted (fun _ => []) [str "stats"] = _
      exact ok_of_opt h2
  refine ⟨_, hT, ?_, ?_⟩
  · refine (C174_report _ _ _ _ _ [] hT cmdFlags (str "test") [(str "v", str "true")] [[str "-v"]] [str "a.test"] (by decide)
      (.cons (.bare (d := ['-']) (.inl rfl) (by decide)) .nil) (.plain (by unfold PlainArg; decide)) (by decide) diff d 0 _ hos (by decide +kernel)).trans ?_
    show Except.ok (testLine diff tryTags [] ++ (testLine diff tryStats _ ++ []), d) = _
    rw [try_tags, try_stats, List.append_nil]
  · refine (C174_verdict _ _ _ _ _ [] hT cmdFlags (str "test") [] [] [str "a.test"] (by decide)
      .nil (.plain (by unfold PlainArg; decide)) (by decide) diff d 0 _ hos (by decide +kernel) (by decide +kernel) (by decide) (by decide +kernel)).trans ?_
    have hf : (tryTests.zip [[], str "Commodities: 1\nPrices: 0\nAccounts: 5\nTransactions: 1\n"]).filter (fun p => decide (p.1.result ≠ p.2)) = [(tryTags, [])] := by decide +kernel
    rw [hf, if_neg (by decide +kernel)]
    show Except.ok (testLine diff tryTags [] ++ [] ++ str "FAIL " ++ str "a.test" ++ str "\n", d) = _
    rw [try_tags, List.append_nil, List.append_assoc, List.append_assoc]
    rfl

end Verif
