import Verif.Lemmas.Format
import Verif.Props.RoundTrip
/-
C51, C52, C54, C55: `format` and the replacement of files.
-/
namespace Verif

/-! ## Specification -/

/-- `r` is `t` with its accounts looked up and a missing quantity filled in; nothing else differs. -/
structure Completed (env : Env) (t r : PTxn) : Prop where
  posted : r.posted = t.posted
  code : r.code = t.code
  description : r.description = t.description
  notes : r.notes = t.notes
  postings : List.Forall₂ (fun p q => env.find p.account = .ok q.account ∧ q.balance = p.balance ∧ q.notes = p.notes ∧
    (∀ a, p.quantity = some a → q.quantity = some a) ∧ q.quantity ≠ none) t.postings r.postings

/-- Does a transaction assert a balance? -/
def Asserts (t : PTxn) : Prop := ∃ p ∈ t.postings, p.balance ≠ none

/-- Date order; on one day transactions without balance assertion come first. -/
def InOrder (t u : PTxn) : Prop := t.posted < u.posted ∨ (t.posted = u.posted ∧ (Asserts t → Asserts u))

/-! ## C55 -/

theorem asserts_iff (t : PTxn) : assertsP t = true ↔ Asserts t := by
  unfold assertsP Asserts
  rw [List.any_eq_true]
  constructor <;> rintro ⟨p, hp, h⟩ <;> refine ⟨p, hp, ?_⟩
  · intro e; rw [e] at h; exact absurd h (by decide)
  · exact Option.isSome_iff_ne_none.mpr h

theorem inOrder_iff (t u : PTxn) : pLess u t = false ↔ InOrder t u := by
  unfold pLess InOrder
  rw [← asserts_iff, ← asserts_iff]
  cases assertsP t <;> cases assertsP u <;> simp <;> omega

theorem resolvePostings_completed {env : Env} {l ps : List PPost} (h : resolvePostings env l = .ok ps) :
    List.Forall₂ (fun p q => env.find p.account = .ok q.account ∧ q.balance = p.balance ∧ q.notes = p.notes ∧
      (∀ a, p.quantity = some a → q.quantity = some a) ∧ q.quantity ≠ none) l ps := by
  unfold resolvePostings at h
  obtain ⟨qs, h1, h2⟩ := bind_ok.mp h
  have hq := (mapM_ok _ _ _).mp h1
  have basic : (∀ q ∈ qs, q.quantity ≠ none) → List.Forall₂ (fun p q => env.find p.account = .ok q.account ∧ q.balance = p.balance ∧ q.notes = p.notes ∧
      (∀ a, p.quantity = some a → q.quantity = some a) ∧ q.quantity ≠ none) l qs := by
    intro hs
    clear h h1 h2
    induction hq with
    | nil => exact .nil
    | cons hp _ ih =>
      refine .cons ?_ (ih (fun q hq => hs q (by simp [hq])))
      have h5 := hs _ List.mem_cons_self
      obtain ⟨a, ha, rfl⟩ := placePosting_ok.mp hp
      exact ⟨ha, rfl, rfl, fun _ h => h, h5⟩
  by_cases hm : mixedComs (qs.map (fun p => env.comOf p.account)) = true
  · rw [if_pos hm] at h2
    by_cases ha : qs.all (fun p => p.quantity.isSome) = true
    · rw [if_pos ha] at h2; cases h2
      refine basic ?_
      intro q hq'
      exact Option.isSome_iff_ne_none.mp (List.all_eq_true.mp ha q hq')
    · rw [if_neg ha] at h2; cases h2
  · rw [if_neg hm] at h2
    cases hl : (qs.map (fun p => env.comOf p.account)).getLast? with
    | none =>
      rw [hl] at h2; cases h2
      have e : ps = [] := by simpa using hl
      exact basic (by simp [e])
    | some c =>
      rw [hl] at h2
      simp only [] at h2
      obtain ⟨r, h3, h4⟩ := bind_ok.mp h2
      by_cases hr : r.2 = true
      · rw [if_pos hr] at h4; cases h4
        generalize r.1.negated = amt
        clear h h1 h2 basic hm hl h3 hr
        induction hq with
        | nil => exact .nil
        | cons hp _ ih =>
          refine .cons ?_ ih
          obtain ⟨a, ha, rfl⟩ := placePosting_ok.mp hp
          rename_i p _ _ _
          refine ⟨by rw [fill_account]; exact ha, ?_, ?_, ?_, Option.isSome_iff_ne_none.mp (fill_isSome _ _)⟩
          · unfold fillQuantity; cases p.quantity <;> rfl
          · unfold fillQuantity; cases p.quantity <;> rfl
          · intro b hb; unfold fillQuantity; simp [hb]
      · rw [if_neg hr] at h4
        by_cases hz : r.1.int = 0
        · rw [if_pos hz] at h4; cases h4
          exact basic (totalP_full _ _ _ _ _ h3 (.inr (by simpa using hr))).1
        · rw [if_neg hz] at h4; cases h4

theorem resolvePTxn_completed {env : Env} {t r : PTxn} (h : resolvePTxn env t = .ok r) : Completed env t r := by
  unfold resolvePTxn at h
  obtain ⟨ps, h1, h2⟩ := bind_ok.mp h
  cases h2
  exact ⟨rfl, rfl, rfl, rfl, resolvePostings_completed h1⟩

theorem writeTxns_blocks {dec : Str → Nat} : ∀ {ts : List PTxn} {lines : List Str}, writeTxns dec ts = .ok lines →
    ∃ blocks, List.Forall₂ (fun t b => writeTxn dec t = .ok b) ts blocks ∧ lines = (blocks.map (· ++ [[]])).flatten := by
  intro ts
  induction ts with
  | nil => intro lines h; simp only [writeTxns, Except.ok.injEq] at h; subst h; exact ⟨[], .nil, rfl⟩
  | cons t ts ih =>
    intro lines h
    unfold writeTxns at h
    obtain ⟨b, h1, h2⟩ := bind_ok.mp h
    obtain ⟨r, h3, h4⟩ := bind_ok.mp h2
    cases h4
    obtain ⟨bs, h5, rfl⟩ := ih h3
    exact ⟨b :: bs, .cons h1 h5, by simp⟩

/-- **C55** `format` writes every transaction of the file exactly once, completed but otherwise unchanged (with `-t`: trimmed), one block
followed by an empty line each, ordered by date and balance assertion; transactions that tie keep their order. -/
theorem C55_format_order (today : Today) (env : Env) (trim : Bool) (st : LoadState) (text out : Str)
    (h : formatText today env trim st text = .ok out) :
    ∃ l rs ts blocks, loadText today { st with items := [] } text = .ok l ∧
      List.Forall₂ (Completed env) (l.items.filterMap itemTxn) rs ∧
      ts.Perm rs ∧ ts.Pairwise InOrder ∧
      (∀ (d : Int) (b : Bool), ts.filter (fun t => decide (t.posted = d) && (assertsP t == b)) = rs.filter (fun t => decide (t.posted = d) && (assertsP t == b))) ∧
      List.Forall₂ (fun t b => writeTxn (fun a => (env.comOf a).decimals) (trimTxn trim t) = .ok b) ts blocks ∧
      out = textOf (blocks.map (· ++ [[]])).flatten := by
  unfold formatText at h
  obtain ⟨l, h1, h2⟩ := bind_ok.mp h
  obtain ⟨us, h3, h4⟩ := bind_ok.mp h2
  obtain ⟨lines, h5, h6⟩ := bind_ok.mp h4
  cases h6
  unfold formatTxns at h3
  obtain ⟨ts, h7, h8⟩ := bind_ok.mp h3
  cases h8
  unfold resolveP at h7
  obtain ⟨rs, h9, h10⟩ := bind_ok.mp h7
  cases h10
  obtain ⟨blocks, hb, rfl⟩ := writeTxns_blocks h5
  refine ⟨l, rs, stableSort pLess rs, blocks, h1, ?_, stableSort_perm _ _, ?_, ?_, ?_, rfl⟩
  · exact ((mapM_ok _ _ _).mp h9).imp (fun _ _ h => resolvePTxn_completed h)
  · exact (stableSort_sorted pLess pLess_strictWeak rs).imp (fun h => (inOrder_iff _ _).mp h)
  · intro d b
    refine stableSort_filter pLess _ ?_ rs
    intro x y hx hy
    simp only [Bool.and_eq_true, decide_eq_true_eq, beq_iff_eq] at hx hy
    unfold pLess
    rw [hx.1, hy.1, hx.2, hy.2]
    cases b <;> simp
  · rwa [List.forall₂_map_left_iff] at hb

/-- `Spaced ws s`: the text `s` consists of the words `ws` with white space around them (and at least one between two words). -/
inductive Spaced : List Str → Str → Prop
  | nil {s} : (∀ x ∈ s, isSpaceU x = true) → Spaced [] s
  | cons {sp w rest ws} : (∀ x ∈ sp, isSpaceU x = true) → w ≠ [] → (∀ x ∈ w, isSpaceU x = false) → (∀ x t, rest = x :: t → isSpaceU x = true) →
      Spaced ws rest → Spaced (w :: ws) (sp ++ (w ++ rest))

theorem scanWords_spaced {ws : List Str} {s : Str} (h : Spaced ws s) : scanWords [] s = ws := by
  have blank : ∀ (sp t : Str), (∀ x ∈ sp, isSpaceU x = true) → scanWords [] (sp ++ t) = scanWords [] t := by
    intro sp
    induction sp with
    | nil => intro t _; rfl
    | cons x sp ih =>
      intro t hx
      rw [List.cons_append, scanWords, if_pos (hx x (by simp)), if_pos rfl]
      exact ih t (fun y hy => hx y (by simp [hy]))
  induction h with
  | nil h =>
    rename_i s
    have := blank s [] h
    rw [List.append_nil] at this
    rw [this]; rfl
  | cons h1 h2 h3 h4 h5 ih =>
    rename_i sp w rest ws
    rw [blank _ _ h1, scanWords_word w [] rest h3, List.nil_append]
    cases rest with
    | nil => rw [scanWords, if_neg h2]; rw [scanWords] at ih; simp at ih; rw [ih]
    | cons x t =>
      have hx := h4 x t rfl
      rw [scanWords, if_pos hx, if_neg h2]
      rw [scanWords, if_pos hx, if_pos rfl] at ih
      rw [ih]

theorem spaced_exists : ∀ s : Str, ∃ ws, Spaced ws s := by
  have main : ∀ (n : Nat) (s : Str), s.length ≤ n → ∃ ws, Spaced ws s := by
    intro n
    induction n with
    | zero => intro s hs; exact ⟨[], .nil (by cases s <;> simp at hs ⊢)⟩
    | succ n ih =>
      intro s hs
      have e1 := List.takeWhile_append_dropWhile (p := isSpaceU) (l := s)
      have e2 := List.takeWhile_append_dropWhile (p := fun c => !isSpaceU c) (l := s.dropWhile isSpaceU)
      have hsp : ∀ x ∈ s.takeWhile isSpaceU, isSpaceU x = true := fun x hx => List.mem_takeWhile_imp hx
      have hw : ∀ x ∈ (s.dropWhile isSpaceU).takeWhile (fun c => !isSpaceU c), isSpaceU x = false := fun x hx => by
        simpa using List.mem_takeWhile_imp hx
      cases hd : s.dropWhile isSpaceU with
      | nil => rw [hd, List.append_nil] at e1; rw [e1] at hsp; exact ⟨[], .nil hsp⟩
      | cons c t =>
        have hc : isSpaceU c = false := by
          have := List.head?_dropWhile_not isSpaceU s
          rw [hd] at this; simpa using this
        have hne : (s.dropWhile isSpaceU).takeWhile (fun c => !isSpaceU c) ≠ [] := by rw [hd]; simp [hc]
        have hlen : ((s.dropWhile isSpaceU).dropWhile (fun c => !isSpaceU c)).length ≤ n := by
          have l1 := congrArg List.length e1
          have l2 := congrArg List.length e2
          rw [List.length_append] at l1 l2
          have : 0 < ((s.dropWhile isSpaceU).takeWhile (fun c => !isSpaceU c)).length := List.length_pos_iff.mpr hne
          omega
        obtain ⟨ws, hws⟩ := ih _ hlen
        have := Spaced.cons hsp hne hw (fun x u e => by
          have := List.head?_dropWhile_not (fun c => !isSpaceU c) (s.dropWhile isSpaceU)
          rw [e] at this; simpa using this) hws
        rw [e2, e1] at this
        exact ⟨_, this⟩
  exact fun s => main _ s (Nat.le_refl _)

/-- **C55** (`-t`) With `-t` the description and every note of a transaction keep their words, in order, separated by single blanks; nothing
else of the transaction changes. Without it nothing changes. -/
theorem C55_trim (t : PTxn) :
    trimTxn false t = t ∧ ∃ d ns, trimTxn true t = { t with description := d, notes := ns } ∧
      (∃ ws, Spaced ws t.description ∧ d = joinWith [' '] ws) ∧ List.Forall₂ (fun n n' => ∃ ws, Spaced ws n ∧ n' = joinWith [' '] ws) t.notes ns := by
  have key : ∀ s, ∃ ws, Spaced ws s ∧ trimWS s = joinWith [' '] ws := by
    intro s
    obtain ⟨ws, h⟩ := spaced_exists s
    exact ⟨ws, h, by unfold trimWS; rw [scanWords_spaced h]⟩
  refine ⟨rfl, trimWS t.description, t.notes.map trimWS, rfl, key _, ?_⟩
  rw [List.forall₂_map_right_iff]
  exact List.forall₂_same.mpr (fun n _ => key n)

/-- Non-vacuity: a description with tabs and double blanks. -/
example : (trimTxn true ⟨0, [], str " Corner \t store ", [str "a  b"], []⟩) = ⟨0, [], str "Corner store", [str "a b"], []⟩ := by decide

/-! ## C54 -/

/-- What `format` writes is final: formatting the written transactions again gives the same transactions. -/
theorem formatTxns_idem {env : Env} {trim : Bool} {ts us : List PTxn} (henv : ∀ n a, env.find n = .ok a → env.find a = .ok a)
    (h : formatTxns env trim ts = .ok us) : formatTxns env trim us = .ok us := by
  unfold formatTxns resolveP at h
  obtain ⟨ss, h1, h2⟩ := bind_ok.mp h
  obtain ⟨rs, h3, h4⟩ := bind_ok.mp h1
  cases h4; cases h2
  have hres : ∀ r ∈ stableSort pLess rs, resolvePTxn env (trimTxn trim r) = .ok (trimTxn trim r) := by
    intro r hr
    have hr : r ∈ rs := (stableSort_perm _ _).mem_iff.mp hr
    obtain ⟨t, _, ht⟩ := forall2_mem_right ((mapM_ok _ _ _).mp h3) r hr
    unfold resolvePTxn at ht
    obtain ⟨ps, h5, h6⟩ := bind_ok.mp ht
    cases h6
    unfold resolvePTxn
    have : (trimTxn trim { t with postings := ps }).postings = ps := by unfold trimTxn; cases trim <;> rfl
    rw [this, resolvePostings_idem henv h5]
    unfold trimTxn
    cases trim <;> rfl
  have hmap : ((stableSort pLess rs).map (trimTxn trim)).mapM (resolvePTxn env) = .ok ((stableSort pLess rs).map (trimTxn trim)) := by
    rw [mapM_ok]
    generalize stableSort pLess rs = l at hres
    induction l with
    | nil => exact .nil
    | cons r l ih => exact .cons (hres r (by simp)) (ih (fun r hr => hres r (by simp [hr])))
  unfold formatTxns resolveP
  rw [hmap]
  simp only [Except.bind]
  have hsorted : ((stableSort pLess rs).map (trimTxn trim)).Pairwise (fun x y => pLess y x = false) := by
    rw [List.pairwise_map]
    exact (stableSort_sorted pLess pLess_strictWeak rs).imp (fun h => by rw [pLess_trim]; exact h)
  rw [stableSort_id pLess _ hsorted, List.map_map]
  congr 1
  refine List.map_congr_left ?_
  intro t _
  exact trimTxn_idem trim t

/-- **C54**, full statement: formatting already formatted output changes nothing, in every environment in which looking up a found
account finds it again. -/
def C54_Statement : Prop :=
  ∀ (today : Today) (env : Env) (trim : Bool) (st : LoadState) (text out : Str), (∀ n a, env.find n = .ok a → env.find a = .ok a) →
    formatText today env trim st text = .ok out → formatText today env trim st out = .ok out

/-- An environment with one commodity in which every name is an account. -/
def exEnv : Env := ⟨[], fun _ => exCad, fun n => .ok n, fun _ a => .ok a⟩
def exState : LoadState := ⟨[exCad], str "CAD", []⟩
def exToday : Today := ⟨2020, 1, 1⟩

/-- Two blanks after the semicolon of a note line: the first formatting keeps one of them, the second removes it. -/
theorem C54_idempotent_violated : ¬ C54_Statement := by
  intro h
  have e : formatText exToday exEnv false exState (str "2000/01/01 x\n  ;  n\n  A  1 CAD\n  B\n") =
      .ok (str "2000/01/01 x ;  n\n  A   1.00 CAD\n  B  -1.00 CAD\n\n") := by decide +kernel
  have h := h exToday exEnv false exState _ _ (fun _ _ _ => rfl) e
  exact absurd h (by decide +kernel)

/-- Without a description a note becomes the description. -/
theorem C54_note_without_description : formatText exToday exEnv false exState (str "2000/01/01; n\n  A  1 CAD\n  B\n") =
      .ok (str "2000/01/01  ; n\n  A   1.00 CAD\n  B  -1.00 CAD\n\n") ∧
    formatText exToday exEnv false exState (str "2000/01/01  ; n\n  A   1.00 CAD\n  B  -1.00 CAD\n\n") =
      .ok (str "2000/01/01 ; n\n  A   1.00 CAD\n  B  -1.00 CAD\n\n") := by
  constructor <;> decide +kernel

theorem filterMap_txns (ts : List PTxn) : (ts.map Item.transaction).filterMap itemTxn = ts := by
  induction ts with
  | nil => rfl
  | cons t ts ih => simp only [List.map_cons, List.filterMap_cons, itemTxn, ih]

/-- **C54** for files whose transactions, as written, are in canonical form: formatting the output again gives the same output.
Missing: transactions that are not canonical, for which the claim fails as shown above. -/
theorem C54_idempotent_partial (today : Today) (env : Env) (trim : Bool) (st : LoadState) (text out : Str)
    (henv : ∀ n a, env.find n = .ok a → env.find a = .ok a) (h : formatText today env trim st text = .ok out)
    (hcanon : ∀ l ts, loadText today { st with items := [] } text = .ok l → formatTxns env trim (l.items.filterMap itemTxn) = .ok ts →
      ∀ t ∈ ts, CanonTxn st.lookup t) :
    formatText today env trim st out = .ok out := by
  unfold formatText at h
  obtain ⟨l, h1, h2⟩ := bind_ok.mp h
  obtain ⟨us, h3, h4⟩ := bind_ok.mp h2
  obtain ⟨lines, h5, h6⟩ := bind_ok.mp h4
  cases h6
  obtain ⟨lines', h7, h8⟩ := C53_file_read_back today (fun a => (env.comOf a).decimals) { st with items := [] } us (hcanon l us h1 h3)
  rw [h5] at h7
  cases h7
  unfold formatText
  rw [h8]
  simp only [Except.bind, List.nil_append]
  rw [filterMap_txns, formatTxns_idem henv h3]
  simp only [h5]

/-- A file whose formatting meets the hypotheses: a comment, a code, a missing quantity, notes and an assertion. -/
def exText : Str := str "; c\n2018/11/03  (A12)   Corner store  ; weekly #food\n  ; second\n  Expenses:Food-1 ; with note\n  Assets:Cash  -10.5 CAD   = -0.05 CAD\n"

theorem exText_canon : (∃ out, formatText exToday exEnv false exState exText = .ok out) ∧
    ∀ l ts, loadText exToday { exState with items := [] } exText = .ok l →
      formatTxns exEnv false (l.items.filterMap itemTxn) = .ok ts → ∀ t ∈ ts, CanonTxn exState.lookup t := by
  constructor
  · exact ⟨str "2018/11/03 (A12) Corner store ; weekly #food\n  ; second\n  Expenses:Food-1   10.50 CAD ; with note\n  Assets:Cash      -10.50 CAD = -0.05 CAD\n\n", by decide +kernel⟩
  · intro l ts h1 h2 t ht
    have e : (loadText exToday { exState with items := [] } exText).toOption.map (fun l => formatTxns exEnv false (l.items.filterMap itemTxn)) =
        some (.ok [exTxn]) := by decide +kernel
    rw [h1] at e
    simp only [Except.toOption, Option.map_some, Option.some.injEq] at e
    rw [h2] at e
    cases e
    simp only [List.mem_singleton] at ht
    subst ht
    unfold exState; rw [exState_lookup]
    exact exTxn_canon

/-- The environments made from loaded accounts find a found account again. -/
theorem find_found_again (names : List Str) (matcher : Str → Str → Bool) (n a : Str)
    (h : mustFindAccount names (matcher n) n = .ok a) : mustFindAccount names (matcher a) a = .ok a := by
  have hmem : a ∈ names := by
    unfold mustFindAccount at h
    split at h
    · cases h; assumption
    · have hf : ∀ x ∈ findAccounts names (matcher n), x ∈ names := by
        intro x hx; unfold findAccounts sortStrings at hx
        exact (stableSort_perm _ _).mem_iff.mp (List.mem_of_mem_filter ((stableSort_perm _ _).mem_iff.mp hx))
      split at h
      · cases h
      · rename_i e; cases h; exact hf _ (by rw [e]; simp)
      · rename_i e; split at h
        · cases h; exact hf _ (by rw [e]; simp)
        · cases h
  unfold mustFindAccount
  rw [if_pos hmem]

/-! ## C52 -/

/-- **C52**, full statement, for comment lines at the left margin: they are still in the file after formatting it in place. -/
def C52_Statement : Prop :=
  ∀ (today : Today) (env : Env) (trim : Bool) (st : LoadState) (text out : Str), formatText today env trim st text = .ok out →
    ∀ l ∈ scanLines text, isComment l = true → l ∈ scanLines out

theorem C52_keeps_violated : ¬ C52_Statement := by
  intro h
  have := h exToday exEnv false exState (str "; my ledger\n2000/01/01 x\n  A  1 CAD\n  B\n")
    (str "2000/01/01 x\n  A   1.00 CAD\n  B  -1.00 CAD\n\n") (by decide +kernel) (str "; my ledger") (by decide +kernel) (by decide)
  exact absurd this (by decide +kernel)

/-- What is left of the file: the transactions (completed, reordered) and nothing else. Accounts, commodities, prices, tests, includes and
comments are never written back. -/
theorem C52_only_transactions_partial (today : Today) (env : Env) (trim : Bool) (st : LoadState) (text out : Str)
    (h : formatText today env trim st text = .ok out)
    (hcanon : ∀ l ts, loadText today { st with items := [] } text = .ok l → formatTxns env trim (l.items.filterMap itemTxn) = .ok ts →
      ∀ t ∈ ts, CanonTxn st.lookup t) :
    ∃ l ts, loadText today { st with items := [] } text = .ok l ∧ formatTxns env trim (l.items.filterMap itemTxn) = .ok ts ∧
      loadText today { st with items := [] } out = .ok { st with items := ts.map Item.transaction } := by
  unfold formatText at h
  obtain ⟨l, h1, h2⟩ := bind_ok.mp h
  obtain ⟨us, h3, h4⟩ := bind_ok.mp h2
  obtain ⟨lines, h5, h6⟩ := bind_ok.mp h4
  cases h6
  obtain ⟨lines', h7, h8⟩ := C53_file_read_back today (fun a => (env.comOf a).decimals) { st with items := [] } us (hcanon l us h1 h3)
  rw [h5] at h7
  cases h7
  exact ⟨l, us, h1, h3, by simpa using h8⟩

/-! ## C51 -/

/-- **C51**, full statement: whenever the process dies, the name refers to the complete old or the complete new content. -/
def C51_Statement : Prop :=
  ∀ (d : Dir) (fn tmp old : Str) (chunks : List Str), fn ≠ tmp → d fn = some old → d tmp = none →
    ∀ k, crashAfter d (replaceOps fn tmp chunks) k fn = some old ∨ crashAfter d (replaceOps fn tmp chunks) k fn = some chunks.flatten

/-- Between removing the old file and renaming the temporary one the name refers to nothing. -/
theorem C51_crash_violated : ¬ C51_Statement := by
  intro h
  have := h (fun n => if n = str "f" then some (str "old") else none) (str "f") (str "f1") (str "old") [str "new"] (by decide) (by decide)
    (by decide) 3
  exact absurd this (by decide)

theorem append_chunks (d : Dir) (tmp : Str) : ∀ (chunks : List Str) (c : Str), d tmp = some c →
    ∀ x, (chunks.map (FileOp.append tmp)).foldl FileOp.exec d x = if x = tmp then some (c ++ chunks.flatten) else d x := by
  intro chunks
  induction chunks generalizing d with
  | nil => intro c h x; by_cases hx : x = tmp <;> simp [hx, h]
  | cons a l ih =>
    intro c h x
    rw [List.map_cons, List.foldl_cons, ih (FileOp.exec d (.append tmp a)) (c ++ a) (by simp [FileOp.exec, Dir.put, h])]
    by_cases hx : x = tmp <;> simp [hx, FileOp.exec, Dir.put]

/-- **C51** (what does hold) At every crash point no other file has changed, and one of these is the case: the name still has the complete
old content; the name is missing and the temporary file has the complete new content; the name has the complete new content. Missing: the
second case must not occur. -/
theorem C51_crash_partial (d : Dir) (fn tmp old : Str) (chunks : List Str) (hne : fn ≠ tmp) (hfn : d fn = some old) (k : Nat) :
    (∀ x, x ≠ fn → x ≠ tmp → crashAfter d (replaceOps fn tmp chunks) k x = d x) ∧
    (crashAfter d (replaceOps fn tmp chunks) k fn = some old ∨
      (k = chunks.length + 2 ∧ crashAfter d (replaceOps fn tmp chunks) k fn = none ∧ crashAfter d (replaceOps fn tmp chunks) k tmp = some chunks.flatten) ∨
      (chunks.length + 3 ≤ k ∧ crashAfter d (replaceOps fn tmp chunks) k fn = some chunks.flatten ∧ crashAfter d (replaceOps fn tmp chunks) k tmp = none)) := by
  have before : ∀ j ≤ chunks.length, ∀ x, crashAfter d (replaceOps fn tmp chunks) (j + 1) x = if x = tmp then some (chunks.take j).flatten else d x := by
    intro j hj x
    unfold crashAfter replaceOps
    have : (FileOp.create tmp :: chunks.map (FileOp.append tmp) ++ [FileOp.remove fn, FileOp.rename tmp fn]).take (j + 1) =
        .create tmp :: (chunks.take j).map (FileOp.append tmp) := by
      rw [List.cons_append, List.take_succ_cons, List.take_append_of_le_length (by simpa using hj), List.map_take]
    rw [this, List.foldl_cons, append_chunks _ tmp _ [] (by simp [FileOp.exec, Dir.put])]
    by_cases hx : x = tmp <;> simp [hx, FileOp.exec, Dir.put]
  rcases Nat.lt_or_ge k (chunks.length + 2) with hk | hk
  · cases k with
    | zero => exact ⟨fun x _ _ => rfl, .inl hfn⟩
    | succ k =>
      have := before k (by omega)
      refine ⟨fun x _ h2 => by rw [this, if_neg h2], .inl (by rw [this, if_neg hne, hfn])⟩
  · have h2 : ∀ x, crashAfter d (replaceOps fn tmp chunks) (chunks.length + 2) x = if x = fn then none else if x = tmp then some chunks.flatten else d x := by
      intro x
      have e : (replaceOps fn tmp chunks).take (chunks.length + 2) = (replaceOps fn tmp chunks).take (chunks.length + 1) ++ [.remove fn] := by
        unfold replaceOps
        rw [List.cons_append, List.take_succ_cons, List.take_succ_cons, List.cons_append]
        congr 1
        rw [List.take_append, List.take_append]
        simp
      have b := before chunks.length (Nat.le_refl _)
      unfold crashAfter at b ⊢
      rw [e, List.foldl_append]
      simp only [List.foldl_cons, List.foldl_nil, FileOp.exec, Dir.put]
      rw [b, List.take_length]
    rcases Nat.eq_or_lt_of_le hk with hk | hk
    · subst hk
      refine ⟨fun x hx1 hx2 => by rw [h2, if_neg hx1, if_neg hx2], .inr (.inl ⟨rfl, by rw [h2, if_pos rfl], by rw [h2, if_neg hne.symm, if_pos rfl]⟩)⟩
    · have e : (replaceOps fn tmp chunks).take k = (replaceOps fn tmp chunks).take (chunks.length + 2) ++ [.rename tmp fn] := by
        rw [List.take_of_length_le (by unfold replaceOps; simp; omega)]
        unfold replaceOps
        rw [List.cons_append, List.take_succ_cons, List.cons_append]
        congr 1
        rw [List.take_append]
        simp
      have h3 : ∀ x, crashAfter d (replaceOps fn tmp chunks) k x = if x = tmp then none else if x = fn then some chunks.flatten else d x := by
        intro x
        unfold crashAfter at h2 ⊢
        rw [e, List.foldl_append]
        simp only [List.foldl_cons, List.foldl_nil, FileOp.exec, Dir.put]
        by_cases hx : x = tmp
        · simp [hx]
        · by_cases hx2 : x = fn
          · simp only [hx2, if_false, if_true, hne]
            rw [h2, if_neg hne.symm, if_pos rfl]
          · simp only [hx, hx2, if_false]
            rw [h2, if_neg hx2, if_neg hx]
      refine ⟨fun x hx1 hx2 => by rw [h3, if_neg hx2, if_neg hx1], .inr (.inr ⟨hk, by rw [h3, if_neg hne, if_pos rfl], by rw [h3, if_pos rfl]⟩)⟩

end Verif
