import Verif.Model.FormatOwn
import Verif.Props.Format
import Verif.Props.Load
/-
C150: rewriting the files of a ledger that loads.
-/
namespace Verif

/-- The ledger as `coin` itself resolves it: the accounts of the setup and those declared in the file, each with its commodity. -/
structure Ledger150 (s : Setup) (l : LoadState) (env : Env) : Prop where
  names : env.names = s.all ((l.items.filterMap itemAcct).map (·.fullName))
  known : ∀ a, a ∉ (l.items.filterMap itemAcct).map (·.fullName) → env.comOf a = s.comOf a
  declared : ∀ a ∈ l.items.filterMap itemAcct, (∀ b ∈ l.items.filterMap itemAcct, b.fullName = a.fullName → b = a) →
    l.lookup a.commodityId = some (env.comOf a.fullName)
  find : ∀ n, env.find n = mustFindAccount env.names (s.matcher n) n
  conv : env.conv = s.conv

/-- **C150**, full statement: a file that loads, and whose transactions resolve and can be written once its accounts are resolved like all
others, can be formatted. -/
def C150_Statement : Prop :=
  ∀ (today : Today) (s : Setup) (st l : LoadState) (env : Env) (text : Str) (ts : List PTxn) (lines : List Str),
    loadText today { st with items := [] } text = .ok l → Ledger150 s l env → resolveP env (l.items.filterMap itemTxn) = .ok ts →
    writeTxns (fun a => (env.comOf a).decimals) ts = .ok lines → formatFiles today s false st [] [text] = .ok [textOf lines]

/-- A setup of two accounts and one commodity; names are found by themselves. -/
def exSetup : Setup := ⟨[str "A", str "B"], fun _ => exCad, fun p n => decide (p = n), fun _ a => .ok a⟩

/-- A file that declares the account it uses. -/
def ownText : Str := str "account C\n  commodity CAD\n2000/01/01 x\n  A  1 CAD\n  C  -1 CAD\n"

def ownEnv : Env := ⟨[str "A", str "B", str "C"], fun _ => exCad, fun n => mustFindAccount [str "A", str "B", str "C"] (fun m => decide (n = m)) n, fun _ a => .ok a⟩

def ownLoaded : LoadState :=
  ⟨[exCad], str "CAD", [.account ⟨str "C", [], str "CAD", none, [], [], []⟩,
    .transaction ⟨730119, [], str "x", [], [⟨str "A", some ⟨100, exCad⟩, none, []⟩, ⟨str "C", some ⟨-100, exCad⟩, none, []⟩]⟩]⟩

theorem load_eq {x : Except Fault LoadState} {l : LoadState} (h : x.toOption.map (fun l => (l.coms, l.dflt, l.items)) = some (l.coms, l.dflt, l.items)) :
    x = .ok l := by
  cases x with
  | error e => simp [Except.toOption] at h
  | ok b =>
    obtain ⟨b1, b2, b3⟩ := b
    obtain ⟨l1, l2, l3⟩ := l
    simp only [Except.toOption, Option.map_some, Option.some.injEq, Prod.mk.injEq] at h
    obtain ⟨rfl, rfl, rfl⟩ := h
    rfl

/-- The commodity of an account declared in the file is nil. -/
theorem C150_own_accounts_violated : ¬ C150_Statement := by
  intro h
  have h := h exToday exSetup exState ownLoaded ownEnv ownText
    [⟨730119, [], str "x", [], [⟨str "A", some ⟨100, exCad⟩, none, []⟩, ⟨str "C", some ⟨-100, exCad⟩, none, []⟩]⟩]
    [str "2000/01/01 x", str "  A   1.00 CAD", str "  C  -1.00 CAD", []]
    (load_eq (by decide +kernel)) ⟨by decide +kernel, fun _ _ => rfl, by decide +kernel, fun _ => rfl, rfl⟩ (by decide +kernel) (by decide +kernel)
  exact absurd h (by decide +kernel)

/-! ### What does hold -/

/-- The setup after loading files that declare `own`, seen as the environment of `Model/Format.lean`. -/
def Setup.env (s : Setup) (own : List Str) : Env := ⟨s.all own, s.comOf, s.find own, s.conv⟩

/-- The names of the accounts declared by loaded items. -/
def declaredIn (l : LoadState) : List Str := (l.items.filterMap itemAcct).map (·.fullName)

/-- No posting of the transactions is in an account of `own`. -/
def Avoids (s : Setup) (own : List Str) (ts : List PTxn) : Prop := ∀ t ∈ ts, ∀ p ∈ t.postings, ∀ a, s.find own p.account = .ok a → a ∉ own

theorem mixedOpt_some : ∀ l : List Com, mixedOpt (l.map some) = mixedComs l := by
  intro l
  cases l with
  | nil => rfl
  | cons c l =>
    simp only [List.map_cons, mixedOpt, mixedComs, List.any_map]
    congr 1
    funext d
    simp

theorem fill_accounts (b : Amount) (ps : List PPost) : (ps.map (fillQuantity b)).map (·.account) = ps.map (·.account) := by
  rw [List.map_map]
  refine List.map_congr_left ?_
  intro p _
  exact fill_account _ _

/-- Postings outside `own` are resolved as before. -/
theorem resolveOwn_avoids {s : Setup} {own : List Str} {l : List PPost} (h : ∀ p ∈ l, ∀ a, s.find own p.account = .ok a → a ∉ own) :
    resolveOwn s own l = resolvePostings (s.env own) l := by
  unfold resolveOwn resolvePostings
  have e : l.mapM (placeOwn s own) = l.mapM (placePosting (s.env own)) := rfl
  rw [e]
  cases hl : l.mapM (placePosting (s.env own)) with
  | error f => rfl
  | ok qs =>
    have hq := (mapM_ok _ _ _).mp hl
    have hout : ∀ q ∈ qs, q.account ∉ own := by
      intro q hqm
      obtain ⟨p, hp, hpq⟩ := forall2_mem_right hq q hqm
      obtain ⟨a, ha, rfl⟩ := placePosting_ok.mp hpq
      exact h p hp a ha
    have hc : qs.map (fun p => s.com own p.account) = (qs.map (fun p => s.comOf p.account)).map some := by
      rw [List.map_map]
      refine List.map_congr_left ?_
      intro q hqm
      show s.com own q.account = some (s.comOf q.account)
      unfold Setup.com
      rw [if_neg (hout q hqm)]
    show (if mixedOpt (qs.map (fun p => s.com own p.account)) then _ else _) = _
    rw [hc, mixedOpt_some, List.getLast?_map]
    show _ = (if mixedComs (qs.map (fun p => s.comOf p.account)) then _ else _)
    by_cases hm : mixedComs (qs.map (fun p => s.comOf p.account)) = true
    · rw [if_pos hm, if_pos hm]
    · rw [if_neg hm, if_neg hm]
      show _ = (match (qs.map (fun p => s.comOf p.account)).getLast? with
        | none => _ | some c => _)
      cases (qs.map (fun p => s.comOf p.account)).getLast? <;> rfl

/-- Every resolved posting is in the account found for it. -/
theorem resolveOwn_accounts {s : Setup} {own : List Str} {l ps : List PPost} (h : resolveOwn s own l = .ok ps) :
    List.Forall₂ (fun p a => s.find own p.account = .ok a) l (ps.map (·.account)) := by
  unfold resolveOwn at h
  obtain ⟨qs, h1, h2⟩ := bind_ok.mp h
  have hq := (mapM_ok _ _ _).mp h1
  have basic : List.Forall₂ (fun p a => s.find own p.account = .ok a) l (qs.map (·.account)) := by
    clear h h1 h2
    induction hq with
    | nil => exact .nil
    | cons hp _ ih =>
      refine .cons ?_ ih
      unfold placeOwn at hp
      obtain ⟨a, ha, h3⟩ := bind_ok.mp hp
      cases h3
      exact ha
  have key : ps.map (·.account) = qs.map (·.account) := by
    by_cases hm : mixedOpt (qs.map (fun p => s.com own p.account)) = true
    · rw [if_pos hm] at h2
      by_cases ha : qs.all (fun p => p.quantity.isSome) = true
      · rw [if_pos ha] at h2; cases h2; rfl
      · rw [if_neg ha] at h2; cases h2
    · rw [if_neg hm] at h2
      rcases hl : (qs.map (fun p => s.com own p.account)).getLast? with _ | _ | c
      · rw [hl] at h2; cases h2; rfl
      · rw [hl] at h2
        obtain ⟨_, _, h3⟩ := bind_ok.mp h2
        cases h3; rfl
      · rw [hl] at h2
        obtain ⟨r, _, h3⟩ := bind_ok.mp h2
        by_cases hr : r.2 = true
        · rw [if_pos hr] at h3; cases h3; exact fill_accounts _ _
        · rw [if_neg hr] at h3
          by_cases hz : r.1.int = 0
          · rw [if_pos hz] at h3; cases h3; rfl
          · rw [if_neg hz] at h3; cases h3
  rw [key]
  exact basic

theorem resolveOwnTxns_avoids {s : Setup} {own : List Str} {ts : List PTxn} (h : Avoids s own ts) : resolveOwnTxns s own ts = resolveP (s.env own) ts := by
  unfold resolveOwnTxns resolveP
  congr 1
  induction ts with
  | nil => rfl
  | cons t ts ih =>
    rw [List.mapM_cons, List.mapM_cons, ih (fun t ht => h t (by simp [ht])), resolveOwn_avoids (h t (by simp))]
    rfl

theorem writeOwnTxns_outside {s : Setup} {own : List Str} : ∀ {ts : List PTxn}, (∀ t ∈ ts, ∀ p ∈ t.postings, p.account ∉ own) →
    writeOwnTxns s own ts = writeTxns (fun a => (s.comOf a).decimals) ts := by
  intro ts
  induction ts with
  | nil => intro _; rfl
  | cons t ts ih =>
    intro h
    unfold writeOwnTxns writeTxns
    have : writeOwn s own t = writeTxn (fun a => (s.comOf a).decimals) t := by
      unfold writeOwn
      rw [if_neg]
      intro hany
      obtain ⟨p, hp, hq⟩ := List.any_eq_true.mp hany
      exact h t (by simp) p hp (of_decide_eq_true hq)
    rw [this, ih (fun t ht => h t (by simp [ht]))]

theorem writeOwnTxns_ok {s : Setup} {own : List Str} : ∀ {ts : List PTxn} {lines : List Str}, writeOwnTxns s own ts = .ok lines →
    ∀ t ∈ ts, ∀ p ∈ t.postings, p.account ∉ own := by
  intro ts
  induction ts with
  | nil => intro _ _ t ht; cases ht
  | cons t ts ih =>
    intro lines h u hu p hp hown
    unfold writeOwnTxns at h
    obtain ⟨b, h1, h2⟩ := bind_ok.mp h
    obtain ⟨r, h3, _⟩ := bind_ok.mp h2
    rcases List.mem_cons.mp hu with rfl | hu
    · unfold writeOwn at h1
      rw [if_pos (List.any_eq_true.mpr ⟨p, hp, by simpa using hown⟩)] at h1
      cases h1
    · exact ih h3 u hu p hp hown

theorem trimTxn_postings (trim : Bool) (t : PTxn) : (trimTxn trim t).postings = t.postings := by cases trim <;> rfl

theorem resolveOwnTxns_accounts {s : Setup} {own : List Str} {ts us : List PTxn} (h : resolveOwnTxns s own ts = .ok us) :
    (∀ t ∈ ts, ∃ u ∈ us, List.Forall₂ (fun p a => s.find own p.account = .ok a) t.postings (u.postings.map (·.account))) ∧
    (∀ u ∈ us, ∃ t ∈ ts, List.Forall₂ (fun p a => s.find own p.account = .ok a) t.postings (u.postings.map (·.account))) := by
  unfold resolveOwnTxns at h
  obtain ⟨rs, h1, h2⟩ := bind_ok.mp h
  cases h2
  have hf := (mapM_ok _ _ _).mp h1
  have hp := stableSort_perm pLess rs
  constructor
  · intro t ht
    obtain ⟨u, hu, htu⟩ := forall2_mem_left hf t ht
    obtain ⟨ps, h3, h4⟩ := bind_ok.mp htu
    cases h4
    exact ⟨_, hp.mem_iff.mpr hu, resolveOwn_accounts h3⟩
  · intro u hu
    obtain ⟨t, ht, htu⟩ := forall2_mem_right hf u (hp.mem_iff.mp hu)
    obtain ⟨ps, h3, h4⟩ := bind_ok.mp htu
    cases h4
    exact ⟨t, ht, resolveOwn_accounts h3⟩

/-- **C150** (what does hold) exactly which files can be formatted: those of which no posting is in an account declared in this file or an
earlier one of the same run, and which can be formatted otherwise; and then the output is that of `format` on the file. Missing: files that
post to the accounts they declare. -/
theorem C150_exactly_partial (today : Today) (s : Setup) (trim : Bool) (st l : LoadState) (own : List Str) (text out : Str)
    (hl : loadText today { st with items := [] } text = .ok l) :
    (∃ r, formatOwn today s trim st own text = .ok r ∧ r.1 = out) ↔
      (Avoids s (own ++ declaredIn l) (l.items.filterMap itemTxn) ∧ formatText today (s.env (own ++ declaredIn l)) trim st text = .ok out) := by
  unfold formatOwn formatText
  rw [hl]
  generalize ho : own ++ declaredIn l = own'
  have ho' : own ++ (l.items.filterMap itemAcct).map (·.fullName) = own' := ho
  show (∃ r, ((resolveOwnTxns s (own ++ (l.items.filterMap itemAcct).map (·.fullName)) (l.items.filterMap itemTxn)).bind fun ts =>
    (writeOwnTxns s (own ++ (l.items.filterMap itemAcct).map (·.fullName)) (ts.map (trimTxn trim))).bind fun lines =>
      .ok (textOf lines, ({ l with items := [] } : LoadState), own ++ (l.items.filterMap itemAcct).map (·.fullName))) = .ok r ∧ r.1 = out) ↔ _ ∧
    ((formatTxns (s.env own') trim (l.items.filterMap itemTxn)).bind fun ts =>
      (writeTxns (fun a => (s.comOf a).decimals) ts).bind fun lines => .ok (textOf lines)) = .ok out
  rw [ho']
  constructor
  · rintro ⟨r, h, rfl⟩
    obtain ⟨us, h1, h2⟩ := bind_ok.mp h
    obtain ⟨lines, h3, h4⟩ := bind_ok.mp h2
    cases h4
    have hout := writeOwnTxns_ok h3
    have hav : Avoids s own' (l.items.filterMap itemTxn) := by
      intro t ht p hp a ha hown
      obtain ⟨u, hu, hf⟩ := (resolveOwnTxns_accounts h1).1 t ht
      obtain ⟨b, hb, hab⟩ := forall2_mem_left hf p hp
      obtain ⟨q, hq, rfl⟩ := List.mem_map.mp hb
      rw [ha] at hab
      cases hab
      exact hout (trimTxn trim u) (List.mem_map.mpr ⟨u, hu, rfl⟩) q (by rw [trimTxn_postings]; exact hq) hown
    refine ⟨hav, ?_⟩
    rw [resolveOwnTxns_avoids hav] at h1
    unfold formatTxns
    rw [h1]
    rw [writeOwnTxns_outside hout] at h3
    show ((writeTxns (fun a => (s.comOf a).decimals) (us.map (trimTxn trim))).bind fun lines => .ok (textOf lines)) = _
    rw [h3]
    rfl
  · rintro ⟨hav, h⟩
    unfold formatTxns at h
    obtain ⟨vs, h1, h2⟩ := bind_ok.mp h
    obtain ⟨us, h3, h4⟩ := bind_ok.mp h1
    cases h4
    obtain ⟨lines, h5, h6⟩ := bind_ok.mp h2
    cases h6
    rw [← resolveOwnTxns_avoids hav] at h3
    have hout : ∀ t ∈ us.map (trimTxn trim), ∀ p ∈ t.postings, p.account ∉ own' := by
      intro t ht p hp
      obtain ⟨u, hu, rfl⟩ := List.mem_map.mp ht
      rw [trimTxn_postings] at hp
      obtain ⟨t', ht', hf⟩ := (resolveOwnTxns_accounts h3).2 u hu
      obtain ⟨p', hp', ha⟩ := forall2_mem_right hf p.account (List.mem_map.mpr ⟨p, hp, rfl⟩)
      exact hav t' ht' p' hp' _ ha
    rw [h3]
    refine ⟨(textOf lines, { l with items := [] }, own'), ?_, rfl⟩
    show ((writeOwnTxns s own' (us.map (trimTxn trim))).bind fun lines => .ok (textOf lines, ({ l with items := [] } : LoadState), own')) = _
    rw [writeOwnTxns_outside hout, h5]
    rfl

/-- Nothing but transactions, prices, tests and includes. -/
def NoDeclarations (items : List Item) : Prop := ∀ i ∈ items, (∀ c, i ≠ .commodity c) ∧ (∀ a, i ≠ .account a)

theorem storeItem_adds {st st' : LoadState} {i : ItemD} (h : storeItem st i = .ok st') :
    st'.items = st.items ++ [i.1] ∧ ((∀ c, i.1 ≠ .commodity c) → st'.coms = st.coms ∧ st'.dflt = st.dflt) := by
  unfold storeItem at h
  split at h
  · rename_i c hc
    cases h
    exact ⟨rfl, fun h => absurd hc (h c)⟩
  · rename_i a _
    by_cases ha : a.fullName = []
    · rw [if_pos ha] at h; cases h
    · rw [if_neg ha] at h; cases h; exact ⟨rfl, fun _ => ⟨rfl, rfl⟩⟩
  · cases h; exact ⟨rfl, fun _ => ⟨rfl, rfl⟩⟩

theorem loadLines_keeps (today : Today) : ∀ (n : Nat) (st : LoadState) (lines : List Str) {l : LoadState}, loadLines today n st lines = .ok l →
    ∃ new, l.items = st.items ++ new ∧ ((∀ i ∈ new, ∀ c, i ≠ Item.commodity c) → l.coms = st.coms ∧ l.dflt = st.dflt) := by
  intro n
  induction n with
  | zero => intro st lines l h; cases h; exact ⟨[], by simp, fun _ => ⟨rfl, rfl⟩⟩
  | succ n ih =>
    intro st lines l h
    unfold loadLines at h
    split at h
    · cases h
    · cases h
    · cases h; exact ⟨[], by simp, fun _ => ⟨rfl, rfl⟩⟩
    · rename_i i rest _
      obtain ⟨st', h1, h2⟩ := bind_ok.mp h
      obtain ⟨e1, e2⟩ := storeItem_adds h1
      obtain ⟨new, e3, e4⟩ := ih st' rest h2
      refine ⟨i.1 :: new, by rw [e3, e1]; simp, fun hn => ?_⟩
      obtain ⟨a1, a2⟩ := e2 (hn i.1 (by simp))
      obtain ⟨b1, b2⟩ := e4 (fun x hx => hn x (by simp [hx]))
      exact ⟨b1.trans a1, b2.trans a2⟩

theorem noDeclarations_none {items : List Item} (h : NoDeclarations items) : (items.filterMap itemAcct).map (·.fullName) = [] := by
  rw [List.map_eq_nil_iff, List.filterMap_eq_nil_iff]
  intro i hi
  have := (h i hi).2
  cases i with
  | account a => exact absurd rfl (this a)
  | _ => rfl

theorem avoids_nil (s : Setup) (ts : List PTxn) : Avoids s [] ts := fun _ _ _ _ _ _ h => by cases h

/-- A file without declarations: one pass of the loop is `format` of that file, and nothing stays loaded. -/
theorem formatOwn_plain (today : Today) (s : Setup) (trim : Bool) (st : LoadState) (text : Str)
    (h : ∀ l, loadText today { st with items := [] } text = .ok l → NoDeclarations l.items) :
    formatOwn today s trim st [] text = (formatText today (s.env []) trim st text).bind fun out => .ok (out, { st with items := [] }, []) := by
  unfold formatOwn formatText
  cases hl : loadText today { st with items := [] } text with
  | error f => rfl
  | ok l =>
    have hn := h l hl
    have ho := noDeclarations_none hn
    obtain ⟨new, e1, e2⟩ := loadLines_keeps today _ _ _ hl
    have e1 : l.items = new := by simpa using e1
    obtain ⟨e3, e4⟩ := e2 (fun i hi => (hn i (by rw [e1]; exact hi)).1)
    have e5 : ({ l with items := [] } : LoadState) = { st with items := [] } := by
      cases l; cases st
      simp only at e3 e4
      rw [e3, e4]
    show ((resolveOwnTxns s ([] ++ (l.items.filterMap itemAcct).map (·.fullName)) (l.items.filterMap itemTxn)).bind fun ts =>
      (writeOwnTxns s ([] ++ (l.items.filterMap itemAcct).map (·.fullName)) (ts.map (trimTxn trim))).bind fun lines =>
        .ok (textOf lines, ({ l with items := [] } : LoadState), [] ++ (l.items.filterMap itemAcct).map (·.fullName))) = _
    rw [ho, e5, List.append_nil, resolveOwnTxns_avoids (avoids_nil s _)]
    unfold formatTxns
    show _ = Except.bind (((resolveP (s.env []) (l.items.filterMap itemTxn)).bind fun rs => .ok (rs.map (trimTxn trim))).bind fun ts => _) _
    cases hr : resolveP (s.env []) (l.items.filterMap itemTxn) with
    | error f => rfl
    | ok rs =>
      show (writeOwnTxns s [] (rs.map (trimTxn trim))).bind _ = Except.bind ((writeTxns (fun a => (s.comOf a).decimals) (rs.map (trimTxn trim))).bind _) _
      rw [writeOwnTxns_outside (fun _ _ _ _ h => by cases h)]
      cases writeTxns (fun a => (s.comOf a).decimals) (rs.map (trimTxn trim)) <;> rfl

theorem formatText_items (today : Today) (env : Env) (trim : Bool) (st : LoadState) (text : Str) :
    formatText today env trim { st with items := [] } text = formatText today env trim st text := rfl

/-- **C150**, several files in one run: when none of them declares accounts or commodities, each is formatted as if it were the only one. -/
theorem C150_several_files (today : Today) (s : Setup) (trim : Bool) (st : LoadState) (texts : List Str)
    (h : ∀ text ∈ texts, ∀ l, loadText today { st with items := [] } text = .ok l → NoDeclarations l.items) :
    formatFiles today s trim st [] texts = texts.mapM (formatText today (s.env []) trim st) := by
  induction texts generalizing st with
  | nil => rfl
  | cons text texts ih =>
    unfold formatFiles
    rw [formatOwn_plain today s trim st text (h text (by simp)), List.mapM_cons]
    cases formatText today (s.env []) trim st text with
    | error f => rfl
    | ok out =>
      show (formatFiles today s trim { st with items := [] } [] texts).bind _ = _
      rw [ih { st with items := [] } (fun t ht l hl => h t (by simp [ht]) l hl)]
      rfl

example : formatFiles exToday exSetup false exState [] [str "2000/01/01 x\n  A  1 CAD\n  B\n", str "; only a comment\n"] =
    [str "2000/01/01 x\n  A  1 CAD\n  B\n", str "; only a comment\n"].mapM (formatText exToday (exSetup.env []) false exState) := by
  refine C150_several_files exToday exSetup false exState _ ?_
  have none : ∀ text, (loadText exToday { exState with items := [] } text).toOption.map (fun l => l.items.all (fun i =>
      match i with | .commodity _ => false | .account _ => false | _ => true)) = some true →
      ∀ l, loadText exToday { exState with items := [] } text = .ok l → NoDeclarations l.items := by
    intro text h l hl i hi
    rw [hl] at h
    simp only [Except.toOption, Option.map_some, Option.some.injEq] at h
    have := List.all_eq_true.mp h i hi
    constructor
    · rintro c rfl; cases this
    · rintro a rfl; cases this
  intro text ht
  simp only [List.mem_cons, List.not_mem_nil, or_false] at ht
  rcases ht with rfl | rfl
  · exact none _ (by decide +kernel)
  · exact none _ (by decide +kernel)

/-- An account declared by the first file makes the second fail, although the second can be formatted alone. -/
example : formatFiles exToday exSetup false exState [] [str "2000/01/01 x\n  A  1 CAD\n  B\n"] = .ok [str "2000/01/01 x\n  A   1.00 CAD\n  B  -1.00 CAD\n\n"] ∧
    formatFiles exToday exSetup false exState [] [str "account B\n", str "2000/01/01 x\n  A  1 CAD\n  B  -1 CAD\n"] = .error .panic := by
  decide +kernel

example : ∃ r, formatOwn exToday exSetup false exState [] (str "account C\n2000/01/01 x\n  A  1 CAD\n  B\n") = .ok r ∧
    r.1 = str "2000/01/01 x\n  A   1.00 CAD\n  B  -1.00 CAD\n\n" := by
  have hl : loadText exToday { exState with items := [] } (str "account C\n2000/01/01 x\n  A  1 CAD\n  B\n") =
    .ok ⟨[exCad], str "CAD", [.account ⟨str "C", [], str "CAD", none, [], [], []⟩,
      .transaction ⟨730119, [], str "x", [], [⟨str "A", some ⟨100, exCad⟩, none, []⟩, ⟨str "B", none, none, []⟩]⟩]⟩ := load_eq (by decide +kernel)
  refine (C150_exactly_partial exToday exSetup false exState _ [] _ _ hl).mpr ⟨?_, by decide +kernel⟩
  intro t ht p hp a ha hown
  have ht : t = ⟨730119, [], str "x", [], [⟨str "A", some ⟨100, exCad⟩, none, []⟩, ⟨str "B", none, none, []⟩]⟩ := by
    simp only [List.filterMap_cons, itemTxn, List.filterMap_nil, List.mem_singleton] at ht
    exact ht
  subst ht
  have hown : a = str "C" := by simpa [declaredIn, itemAcct] using hown
  subst hown
  have hp : p = ⟨str "A", some ⟨100, exCad⟩, none, []⟩ ∨ p = ⟨str "B", none, none, []⟩ := by simpa using hp
  rcases hp with rfl | rfl
  · exact absurd ha (by decide +kernel)
  · exact absurd ha (by decide +kernel)

end Verif
