import Verif.Props.RegisterKeeps
import Verif.Props.Modify
import Verif.Props.TagExpr
import Verif.Props.TagsCmd
import Verif.Model.ModifyMain
import Mathlib.Tactic.Ring
/-
C179: `coin modify` from the command line to the reports.
-/
namespace Verif

/-! ## Specification -/

/-- The transactions `modify` selects with `-p payee -tt tags`. -/
def ModifyPicks (compile : Compile) (payee tags : Str) (t : PTxn) : Prop :=
  (payee ≠ [] → ∃ m, compile payee = some m ∧ m t.description = true) ∧ (tags ≠ [] → TagSelects compile tags (parseTags t.notes))

open Classical in
/-- What moves in one transaction: the amount of the first posting of the account `a`, provided that `modify` selects the transaction; counted
when it passes the filters `f` of a report. -/
noncomputable def movedIn (names : List Str) (compile : Compile) (payee tags : Str) (f : Filters) (a : Str) (t : PTxn) : Int :=
  match t.postings.find? (fun p => decide (Means names p.account a)) with
  | some p => if ModifyPicks compile payee tags t ∧ Picks compile f t p then unitsOf t p else 0
  | none => 0

/-! ## The flags -/

theorem optArg_ok {α : Type} {f : Str → Except Fault α} {x : Str} {r : Option α} (h : optArg f x = .ok r) : (x = [] ∧ r = none) ∨ (x ≠ [] ∧ ∃ a, f x = .ok a ∧ r = some a) := by
  unfold optArg at h
  split at h
  · next hx => cases h; exact .inl ⟨hx, rfl⟩
  · next hx => obtain ⟨a, h1, h2⟩ := bind_ok.mp h; cases h2; exact .inr ⟨hx, a, h1, rfl⟩

theorem modifyOf_ok {compile : Compile} {names : List Str} {l : List (Str × Str)} {m : Modify} (h : modifyOf compile names l = .ok m) :
    optArg (fun x => mustFindAccount names (patternMatches x) x) (textFlag l (str "a") []) = .ok m.source ∧
    optArg (fun x => mustFindAccount names (patternMatches x) x) (textFlag l (str "a:") []) = .ok m.target ∧
    optArg (fun x => match compile x with | none => .error .panic | some f => .ok f) (textFlag l (str "p") []) = .ok m.payee ∧
    optArg (newTagMatcher compile) (textFlag l (str "tt") []) = .ok m.ttag ∧ optArg (newTagMatcher compile) (textFlag l (str "pt") []) = .ok m.ptag ∧
    tagArg (textFlag l (str "pt:") []) = .ok m.setPTag ∧ tagArg (textFlag l (str "tt:") []) = .ok m.setTTag := by
  unfold modifyOf at h
  obtain ⟨_, h1, h⟩ := bind_ok.mp h
  obtain ⟨_, h2, h⟩ := bind_ok.mp h
  obtain ⟨_, h3, h⟩ := bind_ok.mp h
  obtain ⟨_, h4, h⟩ := bind_ok.mp h
  obtain ⟨_, h5, h⟩ := bind_ok.mp h
  obtain ⟨_, h6, h⟩ := bind_ok.mp h
  obtain ⟨_, h7, h⟩ := bind_ok.mp h
  cases h
  exact ⟨h1, h2, h3, h4, h5, h6, h7⟩

/-- What the command selects is what the flags say. -/
theorem selects_flags {compile : Compile} {names : List Str} {l : List (Str × Str)} {m : Modify} (h : modifyOf compile names l = .ok m) (t : PTxn) :
    modifySelects m t = true ↔ ModifyPicks compile (textFlag l (str "p") []) (textFlag l (str "tt") []) t := by
  obtain ⟨_, _, h3, h4, _⟩ := modifyOf_ok h
  rw [selects_iff]
  unfold ToModify ModifyPicks
  refine and_congr ?_ ?_
  · rcases optArg_ok h3 with ⟨e1, e2⟩ | ⟨e1, f, e2, e3⟩
    · rw [e1, e2]; simp
    · rw [e3]
      cases hc : compile (textFlag l (str "p") []) with
      | none => rw [hc] at e2; cases e2
      | some g =>
        rw [hc] at e2
        cases e2
        constructor
        · intro k _; exact ⟨f, rfl, k f rfl⟩
        · intro k g' hg
          cases hg
          obtain ⟨_, k1, k2⟩ := k e1
          cases k1
          exact k2
  · have hget : (TagMap.toTags (parseTags t.notes)).getD [] = parseTags t.notes := by
      unfold TagMap.toTags
      split
      · next h => rw [h]; rfl
      · rfl
    rcases optArg_ok h4 with ⟨e1, e2⟩ | ⟨e1, f, e2, e3⟩
    · rw [e1, e2]; simp
    · have hx := C48_tag_expression compile (textFlag l (str "tt") []) (TagMap.toTags (parseTags t.notes))
      rw [hget] at hx
      rw [e3, ← hx]
      constructor
      · intro k _; exact ⟨f, e2, k f rfl⟩
      · intro k g' hg
        cases hg
        obtain ⟨g, k1, k2⟩ := k e1
        cases e2.symm.trans k1
        exact k2

/-! ## Tag lines -/

theorem joined_noNl {l : List Str} (h : ∀ x ∈ l, noNl x) : noNl (joinWith (str ", ") l) := by
  induction l with
  | nil => intro x hx; cases hx
  | cons a l ih =>
    by_cases hl : l = []
    · subst hl
      exact h a (by simp)
    · rw [joinWith_cons _ _ _ hl]
      intro x hx
      simp only [List.mem_append] at hx
      rcases hx with (hx | hx) | hx
      · exact h a (by simp) x hx
      · rcases List.mem_cons.mp hx with rfl | hx
        · decide
        · rw [List.mem_singleton.mp hx]; decide
      · exact ih (fun y hy => h y (by simp [hy])) x hx

theorem tagLine_noNl {val line : Str} (h : mustParseTags val = .ok line) (hv : noNl val) : line ≠ [] ∧ noNl line := by
  unfold mustParseTags at h
  simp only [] at h
  split at h
  · cases h
  · next hne =>
    cases h
    have hfound : ∀ k v, tagOf (parseTags [val]) k = some v → noNl k ∧ noNl v := by
      intro k v hk
      obtain ⟨_, _, n, hn, pre, post, hs⟩ := C64_tags_sound [val] k v hk
      cases List.mem_singleton.mp hn
      rcases hs with ⟨e, hs⟩ | ⟨sp, _, hs⟩
      · rw [hs] at hv
        exact ⟨fun x hx => hv x (by simp [hx]), by rw [e]; intro x hx; cases hx⟩
      · rw [hs] at hv
        exact ⟨fun x hx => hv x (by simp [hx]), fun x hx => hv x (by simp [hx])⟩
    have hkeys : ∀ k ∈ tagKeys (parseTags [val]), ∃ v, tagOf (parseTags [val]) k = some v := by
      intro k hk
      unfold tagKeys at hk
      have hk : k ∈ (parseTags [val]).map (·.1) := (stableSort_perm _ _).mem_iff.mp hk
      obtain ⟨e, he, rfl⟩ := List.mem_map.mp hk
      cases hx : (parseTags [val]).find? (fun e' => decide (e'.1 = e.1)) with
      | none => exact absurd (List.find?_eq_none.mp hx e he) (by simp)
      | some y => exact ⟨y.2, by unfold tagOf; rw [hx]; rfl⟩
    constructor
    · rw [ne_eq, join_nil_iff (by
        intro v hv
        obtain ⟨k, _, rfl⟩ := List.mem_map.mp hv
        simp), List.map_eq_nil_iff]
      intro hk
      apply hne
      have := (stableSort_perm strLt ((parseTags [val]).map (·.1))).length_eq
      rw [show stableSort strLt ((parseTags [val]).map (·.1)) = tagKeys (parseTags [val]) from rfl, hk] at this
      exact List.length_eq_zero_iff.mp (by simpa using this.symm)
    · apply joined_noNl
      intro y hy
      obtain ⟨k, hk, rfl⟩ := List.mem_map.mp hy
      obtain ⟨v, hv'⟩ := hkeys k hk
      obtain ⟨a1, a2⟩ := hfound k v hv'
      have : tagValue (parseTags [val]) k = v := by unfold tagValue; rw [hv']; rfl
      rw [this]
      intro x hx
      rcases List.mem_append.mp hx with hx | hx
      · rcases List.mem_cons.mp hx with rfl | hx
        · decide
        · exact a1 x hx
      · split at hx
        · cases hx
        · rcases List.mem_cons.mp hx with rfl | hx
          · decide
          · exact a2 x hx

theorem tagArg_noNl {val line : Str} (h : tagArg val = .ok line) (hv : noNl val) (hne : line ≠ []) : noNl line := by
  unfold tagArg at h
  split at h
  · cases h; exact absurd rfl hne
  · exact (tagLine_noNl h hv).2

theorem addTagLine_read {notes : List Str} {line : Str} (hn : ∀ n ∈ notes, n ≠ [] ∧ noNl n) (hl : line ≠ [] ∧ noNl line) : ∀ n ∈ addTagLine notes line, n ≠ [] ∧ noNl n := by
  unfold addTagLine
  cases notes with
  | nil => intro n h; rw [List.mem_singleton.mp h]; exact hl
  | cons a ns =>
    simp only []
    split
    · intro n h
      rcases List.mem_cons.mp h with rfl | h
      · refine ⟨by simp, ?_⟩
        intro x hx
        rcases List.mem_append.mp hx with hx | hx
        · exact (hn a (by simp)).2 x hx
        · rcases List.mem_cons.mp hx with rfl | hx
          · decide
          · exact hl.2 x hx
      · exact hn n (by simp [h])
    · intro n h
      rcases List.mem_append.mp h with h | h
      · exact hn n h
      · rw [List.mem_singleton.mp h]; exact hl

/-! ## What is written reads back -/

/-- A posting after `modify`: the account is the old one or the one of `-a:`, the notes are the old ones or have a line added. -/
theorem modifyLoop_read (m : Modify) : ∀ (b : Bool) (ps : List PPost), List.Forall₂ (fun p q : PPost => q.quantity = p.quantity ∧ q.balance = p.balance ∧
    (q.account = p.account ∨ some q.account = m.target) ∧ (q.notes = p.notes ∨ (m.setPTag ≠ [] ∧ q.notes = addTagLine p.notes m.setPTag))) ps (modifyLoop m b ps).1 := by
  intro b ps
  induction ps generalizing b with
  | nil => exact .nil
  | cons p ps ih =>
    refine .cons ?_ (ih _)
    show _ ∧ _ ∧ _ ∧ _
    have hmod : (modifyPosting m p).1.quantity = p.quantity ∧ (modifyPosting m p).1.balance = p.balance ∧
        ((modifyPosting m p).1.account = p.account ∨ some (modifyPosting m p).1.account = m.target) ∧
        ((modifyPosting m p).1.notes = p.notes ∨ (m.setPTag ≠ [] ∧ (modifyPosting m p).1.notes = addTagLine p.notes m.setPTag)) := by
      unfold modifyPosting
      simp only []
      cases m.target <;> by_cases h : m.setPTag = [] <;> simp [h]
    cases b with
    | true => rw [modifyStep_true]; exact ⟨rfl, rfl, .inl rfl, .inl rfl⟩
    | false =>
      by_cases he : Effective m
      · by_cases hc : Concerned m p
        · rw [modifyStep_first m p hc he]; exact hmod
        · rw [modifyStep_other m p hc]; exact ⟨rfl, rfl, .inl rfl, .inl rfl⟩
      · rw [modifyStep_idle m p he]; exact ⟨rfl, rfl, .inl rfl, .inl rfl⟩

theorem modifyTxn_read (m : Modify) (t : PTxn) : List.Forall₂ (fun p q : PPost => q.quantity = p.quantity ∧ q.balance = p.balance ∧
    (q.account = p.account ∨ some q.account = m.target) ∧ (q.notes = p.notes ∨ (m.setPTag ≠ [] ∧ q.notes = addTagLine p.notes m.setPTag))) t.postings (modifyTxn m t).1.postings ∧
    ((modifyTxn m t).1.notes = t.notes ∨ (m.setTTag ≠ [] ∧ (modifyTxn m t).1.notes = addTagLine t.notes m.setTTag)) := by
  by_cases hs : modifySelects m t = true
  · refine ⟨by rw [modifyTxn_postings m t hs]; exact modifyLoop_read m false t.postings, ?_⟩
    unfold modifyTxn
    rw [if_neg (by simp [hs])]
    simp only []
    split
    · exact .inl rfl
    · split
      · exact .inl rfl
      · next h => exact .inr ⟨h, rfl⟩
  · have e : modifyTxn m t = (t, false) := by unfold modifyTxn; rw [if_pos (by simpa using hs)]
    rw [e]
    refine ⟨?_, .inl rfl⟩
    simp only []
    induction t.postings with
    | nil => exact .nil
    | cons p ps ih => exact .cons ⟨rfl, rfl, .inl rfl, .inl rfl⟩ ih

theorem modified_full {coms : Str → Option Com} {names : List Str} {m : Modify} {t : PTxn} (hr : ReadTxn coms t) (hf : Full t) (hnames : ∀ a ∈ names, AccountName a)
    (htarget : ∀ a, m.target = some a → a ∈ names) (hmem : ∀ q ∈ t.postings, q.account ∈ names)
    (h1 : m.setTTag ≠ [] → noNl m.setTTag) (h2 : m.setPTag ≠ [] → noNl m.setPTag) : ReadTxn coms (modifyTxn m t).1 ∧ Full (modifyTxn m t).1 := by
  obtain ⟨e1, e2, e3, _, _⟩ := C49_nothing_else m t
  obtain ⟨hps, hnotes⟩ := modifyTxn_read m t
  have hacc : ∀ q ∈ (modifyTxn m t).1.postings, AccountName q.account := by
    intro q hq
    obtain ⟨p, hp, _, _, k3, _⟩ := forall2_mem_right hps q hq
    rcases k3 with k | k
    · rw [k]; exact hnames _ (hmem p hp)
    · exact hnames _ (htarget _ k.symm)
  refine ⟨⟨by rw [e2]; exact hr.code, by rw [e3]; exact hr.description, by rw [e2, e3]; exact hr.noCode, ?_, ?_⟩, ?_⟩
  · rcases hnotes with k | ⟨k0, k⟩
    · rw [k]; exact hr.notes
    · rw [k]; exact addTagLine_read hr.notes ⟨k0, h1 k0⟩
  · intro q hq
    obtain ⟨p, hp, k1, k2, _, k4⟩ := forall2_mem_right hps q hq
    have hp := hr.postings p hp
    refine ⟨.inr (hacc q hq), by rw [k1]; exact hp.quantity, by rw [k2]; exact hp.balance, ?_⟩
    rcases k4 with k | ⟨k0, k⟩
    · rw [k]; exact hp.notes
    · rw [k]; exact addTagLine_read hp.notes ⟨k0, h2 k0⟩
  · intro q hq
    obtain ⟨p, hp, k1, _⟩ := forall2_mem_right hps q hq
    obtain ⟨x, u, he, _⟩ := (hacc q hq).head
    refine ⟨by rw [he]; simp, ?_⟩
    rw [k1]
    exact (hf p hp).2

/-- What `coin modify … FILE` did. -/
theorem modifyMain_ok {env : FlagEnv} {compile : Compile} {P P' : Install} {st : LoadState} {accts : List Acct} {w : Str} {fl : List (Str × Str)} {toks : List (List Str)}
    {tail : List Str} {fn : Str} (hw : commandOf w = some .modify) (hl : List.Forall₂ (Written env (flagsOf .modify)) fl toks) (ht : Remaining tail [fn])
    {err : Str} (h : modifyMain env compile P st accts (w :: (toks.flatten ++ tail)) = .ok (P', err)) :
    ∃ m l rs lines, modifyOf compile (accts.map (·.fullName)) fl = .ok m ∧ loadFileS P.disk P.today P.limit st fn = .ok l ∧
      resolveP (formatEnv st accts) l.txns = .ok rs ∧ writeTxns (fun a => (st.comOf accts a).decimals) (rs.map fun t => (modifyTxn m t).1) = .ok lines ∧
      P' = { P with disk := P.disk.put fn (textOf lines) } ∧ err = updatedLine (rs.filter fun t => (modifyTxn m t).2).length fn := by
  unfold modifyMain at h
  rw [dispatch_written hw hl ht] at h
  obtain ⟨m, h1, h⟩ := bind_ok.mp (show (modifyOf compile (accts.map (·.fullName)) fl).bind (fun m => modifyFiles m accts P st [fn]) = .ok (P', err) from h)
  rw [modifyFiles] at h
  obtain ⟨r, h2, h3⟩ := bind_ok.mp h
  rw [modifyFiles] at h3
  obtain ⟨r', h4, h3⟩ := bind_ok.mp h3
  cases h4
  cases h3
  unfold modifyFile at h2
  obtain ⟨l, k1, h2⟩ := bind_ok.mp h2
  obtain ⟨rs, k2, h2⟩ := bind_ok.mp h2
  obtain ⟨lines, k3, h2⟩ := bind_ok.mp h2
  cases h2
  exact ⟨m, l, rs, lines, h1, k1, k2, k3, rfl, List.append_nil _⟩

/-- `coin modify` with the flags `fl` on the file `fn` of the ledger `P` left `P'`. The file contains transactions alone and is included by no
other; `st0` and `accts0` are the commodities and accounts declared, all in the commodity `c`; what is written can be read (C53, C151): years,
notes and amounts that fit, lines that are not too long, tags without line breaks. -/
structure ModifyRun (P P' : Install) (compile : Compile) (st0 : LoadState) (accts0 : List Acct) (fn : Str) (c : Com) (fl : List (Str × Str)) : Prop where
  opened : ∃ L0, AccountsOpened P st0 accts0 L0
  file : ∃ pre post, TxnFile P st0 fn pre post
  one : OneCom st0 accts0 c
  com : CommodityName c.id
  names : ∀ a ∈ accts0, AccountName a.fullName
  ids : (st0.coms.map (·.id)).Nodup
  run : ∃ fe w toks tail err, commandOf w = some .modify ∧ List.Forall₂ (Written fe (flagsOf .modify)) fl toks ∧ Remaining tail [fn] ∧
    modifyMain fe compile P st0 accts0 (w :: (toks.flatten ++ tail)) = .ok (P', err)
  lines : noNl (textFlag fl (str "tt:") []) ∧ noNl (textFlag fl (str "pt:") [])
  short : ∀ text, P'.disk.read fn = some text → ¬ Long text
  settled : ∀ text l, P.disk.read fn = some text → loadText P.today { st0 with items := [] } text = .ok l → ∀ rs m, resolveP (formatEnv st0 accts0) l.txns = .ok rs →
    modifyOf compile (accts0.map (·.fullName)) fl = .ok m → ∀ t ∈ rs, Settled (modifyTxn m t).1

/-- **C179** Modifying a file of transactions leaves a ledger that loads, with all the items of before, except that the transactions of the file
are the completed ones, in the order written, each changed as the flags say (C49). -/
theorem C179_loads (P P' : Install) (compile : Compile) (st0 st : LoadState) (accts0 : List Acct) (fn : Str) (c : Com) (fl : List (Str × Str))
    (h : ModifyRun P P' compile st0 accts0 fn c fl) (hl : loadAllS P.disk P.today P.limit P.files ⟨[], str "CAD", []⟩ = .ok st)
    (hc : ∀ t ∈ st.txns, ∀ p ∈ t.postings, ∀ q, p.quantity = some q → q.com = c) :
    ∃ m before own after rs, modifyOf compile (accts0.map (·.fullName)) fl = .ok m ∧ st.items = before ++ own.map Item.transaction ++ after ∧
      resolveP (formatEnv st0 accts0) own = .ok rs ∧
      loadAllS P'.disk P'.today P'.limit P'.files ⟨[], str "CAD", []⟩ = .ok { st with items := before ++ (rs.map fun t => (modifyTxn m t).1).map Item.transaction ++ after } ∧
      ∃ text l, P.disk.read fn = some text ∧ loadText P.today { st0 with items := [] } text = .ok l ∧ own = l.txns := by
  obtain ⟨⟨_, _, hres, _⟩, ⟨pre, post, hfile⟩, hc0, hcom, hnames, hids, ⟨fe, w, toks, tail, err, hw, hwr, hrem, hP⟩, ⟨hnl1, hnl2⟩, hlong, hset⟩ := h
  have hn := (resolved_spec _ _ _ _ hres).1
  have hne : accts0 ≠ [] := by
    have hroot := (resolved_spec _ _ _ _ hres).2.2.2.2
    rintro rfl
    cases hroot
  obtain ⟨before, aft, text, l, l0, ht, hlt, hcoms, hitems, g0, htx, hnew⟩ := replaced_loads hfile hl
  obtain ⟨m, l', rs, lines, g5, g1, g2, g3, rfl, _⟩ := modifyMain_ok hw hwr hrem hP
  have : l' = l0 := Except.ok.inj (g1.symm.trans g0)
  subst this
  rw [htx] at g2
  have hq : ∀ t ∈ l.txns, ∀ p ∈ t.postings, ∀ q, p.quantity = some q → q.com = c := by
    intro t ht'
    refine hc t ?_
    unfold LoadState.txns
    rw [hitems, List.filterMap_append, List.filterMap_append, filterMap_txns]
    exact List.mem_append_left _ (List.mem_append_right _ ht')
  obtain ⟨f1, f2, _, _, _, f6, f7⟩ := modifyOf_ok g5
  have hcanon : ∀ t ∈ rs.map (fun t => (modifyTxn m t).1), CanonTxn st0.lookup t := by
    intro t ht'
    obtain ⟨r, hr, rfl⟩ := List.mem_map.mp ht'
    obtain ⟨k1, k2, k3⟩ := formatted_full hn hc0.accounts hne hcom hnames hids hlt hcoms hq g2 r hr
    obtain ⟨q1, q2⟩ := modified_full (m := m) k1 k2 (names := accts0.map (·.fullName))
      (fun a ha => by obtain ⟨x, hx, rfl⟩ := List.mem_map.mp ha; exact hnames x hx)
      (fun a ha => by
        rcases optArg_ok f2 with ⟨_, e⟩ | ⟨_, b, e1, e2⟩
        · rw [e] at ha; cases ha
        · rw [e2] at ha; cases ha; exact mustFind_mem hn e1)
      (fun q hq => (k3 q hq).1) (fun h => tagArg_noNl f7 hnl1 h) (fun h => tagArg_noNl f6 hnl2 h)
    exact read_canon q1 (hset text l ht hlt rs m g2 g5 r hr) q2
  obtain ⟨lines', k1, k2⟩ := C53_file_read_back P.today (fun a => (st0.comOf accts0 a).decimals) { st0 with items := [] } _ hcanon
  have : lines' = lines := Except.ok.inj (k1.symm.trans g3)
  subst this
  have hread : (P.disk.put fn (textOf lines')).read fn = some (textOf lines') := by show (if fn = fn then _ else _) = _; rw [if_pos rfl]
  exact ⟨m, before, l.txns, aft, rs, g5, hitems, g2, hnew _ _ (hlong _ hread) (by simpa using k2), text, l, ht, hlt, rfl⟩

/-! ## What moves -/

/-- The filters without tags. -/
def Passes (compile : Compile) (f : Filters) (d : Int) (desc : Str) : Prop :=
  (∀ b ∈ f.begin_, b ≤ d) ∧ (∀ e ∈ f.end_, d < e) ∧ (f.payee ≠ [] → ∃ m, compile f.payee = some m ∧ m desc = true)

theorem picks_passes {compile : Compile} {f : Filters} (hf : f.tag = []) (t : PTxn) (p : PPost) : Picks compile f t p ↔ Passes compile f t.posted t.description := by
  unfold Picks Passes
  constructor
  · rintro ⟨a, b, c, _⟩; exact ⟨a, b, c⟩
  · rintro ⟨a, b, c⟩; exact ⟨a, b, c, fun h => absurd hf h⟩

/-- The units of a posting that has an amount. -/
def postUnits (p : PPost) : Int := (p.quantity.map (·.int)).getD 0

open Classical in
theorem txnUnits_full {names : List Str} {compile : Compile} {f : Filters} (hf : f.tag = []) (x : Str) {t : PTxn} (ht : ∀ q ∈ t.postings, q.account ∈ names ∧ ∃ a, q.quantity = some a) :
    txnUnits names compile f x t = (t.postings.map fun p => if p.account = x ∧ Passes compile f t.posted t.description then postUnits p else 0).sum := by
  unfold txnUnits
  congr 1
  refine List.map_congr_left fun p hp => ?_
  obtain ⟨h1, a, h2⟩ := ht p hp
  have e1 : mustFindAccount names (patternMatches p.account) p.account = .ok x ↔ p.account = x := by
    unfold mustFindAccount
    rw [if_pos h1]
    exact ⟨fun h => Except.ok.inj h, fun h => by rw [h]⟩
  have e2 : unitsOf t p = postUnits p := by unfold unitsOf postUnits; rw [h2]; rfl
  simp only [e1, e2, picks_passes hf]

open Classical in
/-- What `modify -a a -a: b` does to the totals of one completed transaction. -/
theorem modify_units {names : List Str} {compile : Compile} {f : Filters} (hf : f.tag = []) {m : Modify} {a b : Str} (h1 : m.source = some a) (h2 : m.target = some b) (h3 : m.ptag = none)
    (hb : b ∈ names) (x : Str) {r : PTxn} (hr : ∀ q ∈ r.postings, q.account ∈ names ∧ ∃ k, q.quantity = some k) :
    txnUnits names compile f x (modifyTxn m r).1 = txnUnits names compile f x r +
      ((if x = b then 1 else 0) - (if x = a then 1 else 0)) * (match r.postings.find? (fun q => decide (q.account = a)) with
        | some q => if modifySelects m r = true ∧ Passes compile f r.posted r.description then postUnits q else 0
        | none => 0) := by
  obtain ⟨e1, _, e3, _, _⟩ := C49_nothing_else m r
  obtain ⟨hps, _⟩ := modifyTxn_read m r
  have hfull : ∀ q ∈ (modifyTxn m r).1.postings, q.account ∈ names ∧ ∃ k, q.quantity = some k := by
    intro q hq
    obtain ⟨p, hp, k1, _, k3, _⟩ := forall2_mem_right hps q hq
    refine ⟨?_, by rw [k1]; exact (hr p hp).2⟩
    rcases k3 with k | k
    · rw [k]; exact (hr p hp).1
    · rw [h2] at k; cases k; exact hb
  rw [txnUnits_full hf x hr, txnUnits_full hf x hfull, e1, e3]
  by_cases hs : modifySelects m r = true
  · have hcon : ∀ q, Concerned m q ↔ q.account = a := by
      intro q
      unfold Concerned ptagMatch
      rw [h1, h3]
      simp
    have heff : Effective m := .inl (by rw [h2]; simp)
    cases hfd : r.postings.find? (fun q => decide (q.account = a)) with
    | none =>
      have : (modifyTxn m r).1.postings = r.postings := by
        rw [modifyTxn_postings m r hs, modifyLoop_none]
        intro p hp
        rw [hcon]
        simpa using List.find?_eq_none.mp hfd p hp
      rw [this]
      simp
    | some q =>
      obtain ⟨hq, l1, l2, el, hl1⟩ := List.find?_eq_some_iff_append.mp hfd
      have hqa : q.account = a := by simpa using hq
      rw [modifyTxn_postings m r hs, el, modifyLoop_first m l1 q l2 heff (fun p hp => by rw [hcon]; simpa using hl1 p hp) ((hcon q).mpr hqa)]
      have eacc : (modifyPosting m q).1.account = b := by
        unfold modifyPosting
        rw [h2]
        simp only []
        split <;> rfl
      have equ : postUnits (modifyPosting m q).1 = postUnits q := by
        unfold postUnits modifyPosting
        rw [h2]
        simp only []
        split <;> rfl
      simp only [List.map_append, List.map_cons, List.sum_append, List.sum_cons, eacc, equ, hqa, hs, true_and]
      by_cases hp : Passes compile f r.posted r.description <;> by_cases hxb : b = x <;> by_cases hxa : a = x <;>
        simp [hp, hxb, hxa, eq_comm] <;> omega
  · have e : modifyTxn m r = (r, false) := by unfold modifyTxn; rw [if_pos (by simpa using hs)]
    rw [e]
    have : ∀ o : Option PPost, (match o with | some q => if modifySelects m r = true ∧ Passes compile f r.posted r.description then postUnits q else 0 | none => (0 : Int)) = 0 := by
      intro o
      cases o <;> simp [hs]
    rw [this]
    simp

theorem find_forall2 {α β : Type} {R : α → β → Prop} {F : α → Bool} {G : β → Bool} : ∀ {l : List α} {l' : List β}, List.Forall₂ R l l' → (∀ a b, R a b → F a = G b) →
    (l.find? F = none ∧ l'.find? G = none) ∨ ∃ a b, l.find? F = some a ∧ l'.find? G = some b ∧ R a b := by
  intro l l' h hR
  induction h with
  | nil => exact .inl ⟨rfl, rfl⟩
  | @cons a b l l' hab _ ih =>
    rw [List.find?_cons, List.find?_cons, ← hR a b hab]
    cases F a with
    | true => exact .inr ⟨a, b, rfl, rfl, hab⟩
    | false => exact ih

open Classical in
theorem moved_raw {names : List Str} (hn : names.Nodup) {env : Env} (hfind : ∀ n, env.find n = mustFindAccount names (patternMatches n) n) {c : Com}
    (hf : ∀ n a, env.find n = .ok a → env.comOf a = c) {t r : PTxn} (h : resolvePTxn env t = .ok r)
    (hq : ∀ p ∈ t.postings, ∀ q, p.quantity = some q → q.com = c) {compile : Compile} {names0 : List Str} {fl : List (Str × Str)} {m : Modify}
    (hm : modifyOf compile names0 fl = .ok m) {f : Filters} (htag : f.tag = []) (a : Str) :
    (match r.postings.find? (fun q => decide (q.account = a)) with
      | some q => if modifySelects m r = true ∧ Passes compile f r.posted r.description then postUnits q else 0
      | none => 0) = movedIn names compile (textFlag fl (str "p") []) (textFlag fl (str "tt") []) f a t := by
  obtain ⟨e, h2⟩ := resolve_one hf h hq
  have hsel : modifySelects m r = true ↔ ModifyPicks compile (textFlag fl (str "p") []) (textFlag fl (str "tt") []) t := by
    rw [selects_flags hm]
    unfold ModifyPicks
    rw [e]
  have hpas : Passes compile f r.posted r.description ↔ Passes compile f t.posted t.description := by rw [e]
  unfold movedIn
  rcases find_forall2 (F := fun p : PPost => decide (Means names p.account a)) (G := fun q : PPost => decide (q.account = a)) h2 (by
    rintro p q ⟨k1, _⟩
    rw [hfind] at k1
    rw [decide_eq_decide]
    unfold Means
    rw [k1]
    exact ⟨fun h => Except.ok.inj h, fun h => by rw [h]⟩) with ⟨k1, k2⟩ | ⟨p, q, k1, k2, _, k3, _⟩
  · rw [k1, k2]
  · rw [k1, k2]
    have hu : postUnits q = unitsOf t p := by unfold postUnits; rw [k3]; rfl
    simp only [hsel, hpas, picks_passes htag, hu]

/-- The totals after `modify`: `D` is what it changes in a transaction. -/
theorem modified_units (P P' : Install) (compile : Compile) (st0 st st' : LoadState) (accts0 accts accts' : List Acct) (g g' : LedgerView) (fn : Str) (c : Com) (fl : List (Str × Str))
    (h : ModifyRun P P' compile st0 accts0 fn c fl) (hO : Opened P compile st accts g) (hO' : Opened P' compile st' accts' g') (hc : OneCom st accts c)
    (hsame : (accts0.map (·.fullName)).Perm (accts.map (·.fullName))) :
    ∃ m text l, modifyOf compile (accts0.map (·.fullName)) fl = .ok m ∧ P.disk.read fn = some text ∧ loadText P.today { st0 with items := [] } text = .ok l ∧
      st'.dflt = st.dflt ∧ st'.decls = st.decls ∧ OneCom st' accts' c ∧ (∀ t ∈ l.txns, ∀ p ∈ t.postings, ∀ q, p.quantity = some q → q.com = c) ∧
      ∀ (f : Filters) (x : Str) (D : PTxn → Int), (∀ t ∈ l.txns, ∀ r, resolvePTxn (formatEnv st0 accts0) t = .ok r →
          (∀ q ∈ r.postings, q.account ∈ accts.map (·.fullName) ∧ ∃ k : Amount, q.quantity = some k ∧ k.com = c) →
          txnUnits (accts.map (·.fullName)) compile f x (modifyTxn m r).1 = txnUnits (accts.map (·.fullName)) compile f x r + D t) →
        ownUnits (accts'.map (·.fullName)) compile f st'.txns x = ownUnits (accts.map (·.fullName)) compile f st.txns x + (l.txns.map D).sum := by
  classical
  obtain ⟨m, before, own, aft, rs, g5, e1, e2, e3, text, l, ht, hlt, ho⟩ := C179_loads P P' compile st0 st accts0 fn c fl h hO.1 hc.amounts
  obtain ⟨L0, hA⟩ := h.opened
  have hn0 := (resolved_spec _ _ _ _ hA.2.1).1
  have hn : (accts.map (·.fullName)).Nodup := hsame.nodup_iff.mp hn0
  have hown : ∀ t ∈ own, ∀ p ∈ t.postings, ∀ q, p.quantity = some q → q.com = c := by
    intro t ht'
    refine hc.amounts t ?_
    unfold LoadState.txns
    rw [e1, List.filterMap_append, List.filterMap_append, filterMap_txns]
    exact List.mem_append_left _ (List.mem_append_right _ ht')
  have hfind : ∀ n, (formatEnv st0 accts0).find n = mustFindAccount (accts.map (·.fullName)) (patternMatches n) n := fun n => mustFind_perm hsame _ _
  have hone := formatEnv_one (st := st0) hn0 h.one.accounts
  unfold resolveP at e2
  obtain ⟨us, h5, h7⟩ := bind_ok.mp e2
  have h6 : stableSort pLess us = rs := Except.ok.inj h7
  clear h7
  have h5' := (mapM_ok _ _ _).mp h5
  have hfull : ∀ r ∈ us, ∀ q ∈ r.postings, q.account ∈ accts.map (·.fullName) ∧ ∃ k : Amount, q.quantity = some k ∧ k.com = c := by
    intro r hr q hq
    obtain ⟨t, ht', hres⟩ := forall2_mem_right h5' r hr
    obtain ⟨_, hps⟩ := resolve_one hone hres (hown t ht')
    obtain ⟨p, hp, k1, k2, _⟩ := forall2_mem_right hps q hq
    rw [hfind] at k1
    exact ⟨mustFind_mem hn k1, _, k2, rfl⟩
  have hrs : ∀ t ∈ rs.map (fun t => (modifyTxn m t).1), ∀ p ∈ t.postings, ∀ q, p.quantity = some q → q.com = c := by
    intro t ht' p hp q hq
    obtain ⟨r, hr, rfl⟩ := List.mem_map.mp ht'
    rw [← h6] at hr
    obtain ⟨p0, hp0, k1, _⟩ := forall2_mem_right (modifyTxn_read m r).1 p hp
    obtain ⟨_, k, k2, k3⟩ := hfull r ((stableSort_perm _ _).mem_iff.mp hr) p0 hp0
    rw [k1, k2] at hq
    cases hq
    exact k3
  obtain ⟨htx, htx', hdecls, hdflt, hx, hc'⟩ := replaced_state hO hO' hc e1 hrs e3
  clear hx
  obtain ⟨_, _, _, _, _, _, _, _, _, _, _, _, _, _, _, hR, _⟩ := hO.2
  obtain ⟨_, _, _, _, _, _, _, _, _, _, _, _, _, _, _, hR', _⟩ := hO'.2
  rw [hdflt, hdecls] at hR'
  have hperm := resolved_names_perm hR hR'
  refine ⟨m, text, l, g5, ht, hlt, hdflt, hdecls, hc', by rw [← ho]; exact hown, ?_⟩
  intro f x D hD
  rw [← ho] at hD ⊢
  rw [show ownUnits (accts'.map (·.fullName)) compile f st'.txns x = ownUnits (accts.map (·.fullName)) compile f st'.txns x from ownUnits_perm hperm _ _ _ _, ownUnits_eq, ownUnits_eq, htx, htx']
  simp only [List.map_append, List.sum_append]
  have key : ((rs.map fun t => (modifyTxn m t).1).map (txnUnits (accts.map (·.fullName)) compile f x)).sum = (own.map (txnUnits (accts.map (·.fullName)) compile f x)).sum +
      (own.map D).sum := by
    rw [List.map_map, ← h6, perm_sum_int ((stableSort_perm pLess us).map _)]
    clear h5 e2 h6 hrs e1 e3 htx htx' ho
    induction h5' with
    | nil => simp
    | @cons t r own us hres _ ih =>
      simp only [List.map_cons, List.sum_cons, Function.comp]
      rw [ih (fun t ht => hown t (by simp [ht])) (fun r hr => hfull r (by simp [hr])) (fun t ht => hD t (by simp [ht])), hD t (by simp) r hres (hfull r (by simp)),
        txnUnits_resolved hn hfind hone hres (hown t (by simp))]
      ring
  rw [key]
  ring

/-- **C179** Moving postings from one account to another: what the first account loses, the second gains, and it is the sum of the amounts of
the first posting of that account in each transaction of the file that `-p` and `-tt` select; the own total of every other account, and with
that everything `balance` shows of it (C177), stays the same. -/
theorem C179_moves (P P' : Install) (compile : Compile) (st0 st st' : LoadState) (accts0 accts accts' : List Acct) (g g' : LedgerView) (fn : Str) (c : Com) (fl : List (Str × Str))
    (h : ModifyRun P P' compile st0 accts0 fn c fl) (hO : Opened P compile st accts g) (hO' : Opened P' compile st' accts' g') (hc : OneCom st accts c)
    (hsame : (accts0.map (·.fullName)).Perm (accts.map (·.fullName)))
    (hpt : textFlag fl (str "pt") [] = []) (a b : Str) (ha0 : textFlag fl (str "a") [] ≠ []) (hb0 : textFlag fl (str "a:") [] ≠ [])
    (ha : Means (accts.map (·.fullName)) (textFlag fl (str "a") []) a) (hb : Means (accts.map (·.fullName)) (textFlag fl (str "a:") []) b) :
    ∃ text l, P.disk.read fn = some text ∧ loadText P.today { st0 with items := [] } text = .ok l ∧
      ∀ (f : Filters), f.tag = [] → ∀ x, ownUnits (accts'.map (·.fullName)) compile f st'.txns x = ownUnits (accts.map (·.fullName)) compile f st.txns x +
        ((if x = b then 1 else 0) - (if x = a then 1 else 0)) *
          (l.txns.map (movedIn (accts.map (·.fullName)) compile (textFlag fl (str "p") []) (textFlag fl (str "tt") []) f a)).sum := by
  classical
  obtain ⟨m, text, l, g5, ht, hlt, _, _, _, hown, hunits⟩ := modified_units P P' compile st0 st st' accts0 accts accts' g g' fn c fl h hO hO' hc hsame
  obtain ⟨L0, hA⟩ := h.opened
  have hn0 := (resolved_spec _ _ _ _ hA.2.1).1
  have hn : (accts.map (·.fullName)).Nodup := hsame.nodup_iff.mp hn0
  obtain ⟨f1, f2, _, _, f5, _, _⟩ := modifyOf_ok g5
  have hsrc : m.source = some a := by
    rcases optArg_ok f1 with ⟨e, _⟩ | ⟨_, a', k1, k2⟩
    · exact absurd e ha0
    · rw [k2]
      have k1 : mustFindAccount (accts0.map (·.fullName)) _ _ = .ok a' := k1
      rw [mustFind_perm hsame] at k1
      exact congrArg some (Except.ok.inj (k1.symm.trans ha))
  have htgt : m.target = some b := by
    rcases optArg_ok f2 with ⟨e, _⟩ | ⟨_, a', k1, k2⟩
    · exact absurd e hb0
    · rw [k2]
      have k1 : mustFindAccount (accts0.map (·.fullName)) _ _ = .ok a' := k1
      rw [mustFind_perm hsame] at k1
      exact congrArg some (Except.ok.inj (k1.symm.trans hb))
  have hptag : m.ptag = none := by
    rcases optArg_ok f5 with ⟨_, e⟩ | ⟨e, _⟩
    · exact e
    · exact absurd hpt e
  refine ⟨text, l, ht, hlt, ?_⟩
  intro f htag x
  rw [hunits f x (fun t => ((if x = b then 1 else 0) - (if x = a then 1 else 0)) *
    movedIn (accts.map (·.fullName)) compile (textFlag fl (str "p") []) (textFlag fl (str "tt") []) f a t) ?_]
  · congr 1
    generalize l.txns = ts
    induction ts with
    | nil => simp
    | cons t ts ih => simp only [List.map_cons, List.sum_cons]; rw [ih]; ring
  · intro t ht' r hres hfull
    rw [modify_units htag hsrc htgt hptag (mustFind_mem hn hb) x (fun q hq => by
      obtain ⟨k1, k, k2, _⟩ := hfull q hq
      exact ⟨k1, k, k2⟩), moved_raw hn (env := formatEnv st0 accts0) (fun n => mustFind_perm hsame _ _) (formatEnv_one hn0 h.one.accounts) hres (hown t ht') g5 htag a]

open Classical in
/-- The totals of all accounts together count every posting once. -/
theorem txnUnits_total {names : List Str} (hn : names.Nodup) {compile : Compile} {f : Filters} (hf : f.tag = []) {t : PTxn} (ht : ∀ q ∈ t.postings, q.account ∈ names ∧ ∃ a, q.quantity = some a) :
    (names.map fun x => txnUnits names compile f x t).sum = (t.postings.map fun p => if Passes compile f t.posted t.description then postUnits p else 0).sum := by
  have e : (names.map fun x => txnUnits names compile f x t) =
      names.map fun x => (t.postings.map fun p => if p.account = x ∧ Passes compile f t.posted t.description then postUnits p else 0).sum :=
    List.map_congr_left fun x _ => txnUnits_full hf x ht
  rw [e]
  clear e
  generalize Passes compile f t.posted t.description = Q
  revert ht
  generalize t.postings = ps
  induction ps with
  | nil => intro _; simp
  | cons p ps ih =>
    intro ht
    have ih := ih (fun q hq => ht q (by simp [hq]))
    simp only [List.map_cons, List.sum_cons]
    rw [← ih]
    have hp := (ht p (by simp)).1
    clear ih ht
    have key : ∀ (l : List Str), l.Nodup → (l.map fun x => (if p.account = x ∧ Q then postUnits p else 0) + (ps.map fun p => if p.account = x ∧ Q then postUnits p else 0).sum).sum =
        (if p.account ∈ l ∧ Q then postUnits p else 0) + (l.map fun x => (ps.map fun p => if p.account = x ∧ Q then postUnits p else 0).sum).sum := by
      intro l
      induction l with
      | nil => intro _; simp
      | cons x l ih =>
        intro hl
        obtain ⟨h1, h2⟩ := List.nodup_cons.mp hl
        simp only [List.map_cons, List.sum_cons]
        rw [ih h2]
        by_cases hx : p.account = x
        · have : p.account ∉ l := by rw [hx]; exact h1
          by_cases hQ : Q <;> simp [hx, h1, hQ] <;> omega
        · by_cases hQ : Q <;> simp [hx, hQ] <;> omega
    rw [key names hn]
    simp [hp]

/-- A number computed from a result, 0 for an error. -/
def onResult (u : PTxn → Int) : Except Fault PTxn → Int
  | .ok r => u r
  | .error _ => 0

/-- **C179** Whatever the flags are, no money appears or gets lost: the sum of the own totals of all accounts stays the same. -/
theorem C179_total (P P' : Install) (compile : Compile) (st0 st st' : LoadState) (accts0 accts accts' : List Acct) (g g' : LedgerView) (fn : Str) (c : Com) (fl : List (Str × Str))
    (h : ModifyRun P P' compile st0 accts0 fn c fl) (hO : Opened P compile st accts g) (hO' : Opened P' compile st' accts' g') (hc : OneCom st accts c)
    (hsame : (accts0.map (·.fullName)).Perm (accts.map (·.fullName))) (f : Filters) (hf : f.tag = []) :
    ((accts.map (·.fullName)).map (ownUnits (accts'.map (·.fullName)) compile f st'.txns)).sum = ((accts.map (·.fullName)).map (ownUnits (accts.map (·.fullName)) compile f st.txns)).sum := by
  classical
  obtain ⟨m, text, l, g5, ht, hlt, _, _, _, hown, hunits⟩ := modified_units P P' compile st0 st st' accts0 accts accts' g g' fn c fl h hO hO' hc hsame
  obtain ⟨L0, hA⟩ := h.opened
  have hn0 := (resolved_spec _ _ _ _ hA.2.1).1
  have hn : (accts.map (·.fullName)).Nodup := hsame.nodup_iff.mp hn0
  obtain ⟨_, f2, _⟩ := modifyOf_ok g5
  have hfind : ∀ n, (formatEnv st0 accts0).find n = mustFindAccount (accts.map (·.fullName)) (patternMatches n) n := fun n => mustFind_perm hsame _ _
  have hone := formatEnv_one (st := st0) hn0 h.one.accounts
  obtain ⟨D, hDok, hDerr⟩ : ∃ D : Str → PTxn → Int, (∀ x t r, resolvePTxn (formatEnv st0 accts0) t = .ok r →
      D x t = txnUnits (accts.map (·.fullName)) compile f x (modifyTxn m r).1 - txnUnits (accts.map (·.fullName)) compile f x r) ∧
      ∀ x t e, resolvePTxn (formatEnv st0 accts0) t = .error e → D x t = 0 :=
    ⟨fun x t => onResult (fun r => txnUnits (accts.map (·.fullName)) compile f x (modifyTxn m r).1 - txnUnits (accts.map (·.fullName)) compile f x r)
      (resolvePTxn (formatEnv st0 accts0) t), fun x t r h => by simp only [h, onResult], fun x t e h => by simp only [h, onResult]⟩
  have h1 : (accts.map (·.fullName)).map (ownUnits (accts'.map (·.fullName)) compile f st'.txns) =
      (accts.map (·.fullName)).map fun x => ownUnits (accts.map (·.fullName)) compile f st.txns x + (l.txns.map (D x)).sum := by
    refine List.map_congr_left fun x _ => hunits f x (D x) ?_
    intro t ht' r hres _
    rw [hDok x t r hres]
    ring
  have hzero : ∀ t ∈ l.txns, ((accts.map (·.fullName)).map fun x => D x t).sum = 0 := by
    intro t ht'
    cases hres : resolvePTxn (formatEnv st0 accts0) t with
    | error e =>
      rw [List.map_congr_left (fun x _ => hDerr x t e hres)]
      clear h1 hunits hDok hDerr
      induction accts.map (·.fullName) with
      | nil => rfl
      | cons x k ih => simp only [List.map_cons, List.sum_cons]; rw [ih]; rfl
    | ok r =>
      have hD : ∀ x, D x t = txnUnits (accts.map (·.fullName)) compile f x (modifyTxn m r).1 - txnUnits (accts.map (·.fullName)) compile f x r := fun x => hDok x t r hres
      have hr : ∀ q ∈ r.postings, q.account ∈ accts.map (·.fullName) ∧ ∃ k, q.quantity = some k := by
        intro q hq
        obtain ⟨_, hps⟩ := resolve_one hone hres (hown t ht')
        obtain ⟨p, hp, k1, k2, _⟩ := forall2_mem_right hps q hq
        rw [hfind] at k1
        exact ⟨mustFind_mem hn k1, _, k2⟩
      obtain ⟨hps, _⟩ := modifyTxn_read m r
      have hm : ∀ q ∈ (modifyTxn m r).1.postings, q.account ∈ accts.map (·.fullName) ∧ ∃ k, q.quantity = some k := by
        intro q hq
        obtain ⟨p, hp, k1, _, k3, _⟩ := forall2_mem_right hps q hq
        refine ⟨?_, by rw [k1]; exact (hr p hp).2⟩
        rcases k3 with k | k
        · rw [k]; exact (hr p hp).1
        · rcases optArg_ok f2 with ⟨_, e⟩ | ⟨_, a', k1, k2⟩
          · rw [e] at k; cases k
          · rw [k2] at k
            cases k
            have k1 : mustFindAccount (accts0.map (·.fullName)) _ _ = .ok q.account := k1
            rw [mustFind_perm hsame] at k1
            exact mustFind_mem hn k1
      obtain ⟨e1, _, e3, _, _⟩ := C49_nothing_else m r
      have hsum : ∀ (ps qs : List PPost) (Q : Prop) [Decidable Q], List.Forall₂ (fun p q : PPost => q.quantity = p.quantity) ps qs →
          (qs.map fun p => if Q then postUnits p else 0).sum = (ps.map fun p => if Q then postUnits p else 0).sum := by
        intro ps qs Q _ hpq
        induction hpq with
        | nil => rfl
        | @cons p q ps qs h _ ih =>
          simp only [List.map_cons, List.sum_cons]
          rw [ih]
          unfold postUnits
          rw [h]
      have e : ((accts.map (·.fullName)).map fun x => D x t).sum = ((accts.map (·.fullName)).map fun x => txnUnits (accts.map (·.fullName)) compile f x (modifyTxn m r).1).sum -
          ((accts.map (·.fullName)).map fun x => txnUnits (accts.map (·.fullName)) compile f x r).sum := by
        generalize hns : accts.map (·.fullName) = ns at hD
        generalize txnUnits ns compile f = u at hD
        clear hns
        have : ∀ k : List Str, (k.map fun x => D x t).sum = (k.map fun x => u x (modifyTxn m r).1).sum - (k.map fun x => u x r).sum := by
          intro k
          induction k with
          | nil => rfl
          | cons x k ih => simp only [List.map_cons, List.sum_cons]; rw [ih, hD]; ring
        exact this ns
      rw [e, txnUnits_total hn hf hr, txnUnits_total hn hf hm, e1, e3, hsum _ _ _ (hps.imp fun p q h => h.1)]
      ring
  rw [h1]
  have hswap : ∀ (ns : List Str) (ts : List PTxn), (ns.map fun x => (ts.map (D x)).sum).sum = (ts.map fun t => (ns.map fun x => D x t).sum).sum := by
    intro ns ts
    induction ts with
    | nil => simp
    | cons t ts ih =>
      simp only [List.map_cons, List.sum_cons]
      rw [← ih]
      clear ih
      induction ns with
      | nil => rfl
      | cons x ns ih => simp only [List.map_cons, List.sum_cons]; rw [ih]; ring
  have hadd : ∀ (ns : List Str) (u v : Str → Int), (ns.map fun x => u x + v x).sum = (ns.map u).sum + (ns.map v).sum := by
    intro ns u v
    induction ns with
    | nil => rfl
    | cons x ns ih => simp only [List.map_cons, List.sum_cons]; rw [ih]; ring
  rw [hadd, hswap]
  have : (l.txns.map fun t => ((accts.map (·.fullName)).map fun x => D x t).sum) = l.txns.map fun _ => 0 := List.map_congr_left hzero
  rw [this]
  simp

/-- **C179** Without `-a:` the balance report stays the same to the character, under every flag and filter but `-t`: tags change no amount. -/
theorem C179_tags_only (P P' : Install) (compile : Compile) (st0 st st' : LoadState) (accts0 accts accts' : List Acct) (g g' : LedgerView) (fn : Str) (c : Com) (fl : List (Str × Str))
    (h : ModifyRun P P' compile st0 accts0 fn c fl) (hO : Opened P compile st accts g) (hO' : Opened P' compile st' accts' g') (hc : OneCom st accts c)
    (hsame : (accts0.map (·.fullName)).Perm (accts.map (·.fullName))) (hp : PlainNames (accts.map (·.fullName))) (hto : textFlag fl (str "a:") [] = [])
    (fe : FlagEnv) (w : Str) (bl : List (Str × Str)) (toks : List (List Str)) (tail args : List Str) (hw : commandOf w = some .balance)
    (hl : List.Forall₂ (Written fe (flagsOf .balance)) bl toks) (ht : Remaining tail args) (hv : ValidFilters compile (filtersOf fe bl)) (htag : (filtersOf fe bl).tag = []) :
    coinMain fe g' (w :: (toks.flatten ++ tail)) = coinMain fe g (w :: (toks.flatten ++ tail)) := by
  classical
  obtain ⟨m, text, l, g5, _, _, hdflt, hdecls, hc', hown, hunits⟩ := modified_units P P' compile st0 st st' accts0 accts accts' g g' fn c fl h hO hO' hc hsame
  obtain ⟨L0, hA⟩ := h.opened
  have hn0 := (resolved_spec _ _ _ _ hA.2.1).1
  have hn : (accts.map (·.fullName)).Nodup := hsame.nodup_iff.mp hn0
  obtain ⟨_, f2, _⟩ := modifyOf_ok g5
  have htgt : m.target = none := by
    rcases optArg_ok f2 with ⟨_, e⟩ | ⟨e, _⟩
    · exact e
    · exact absurd hto e
  obtain ⟨_, b2, b3, _, _, hR, _⟩ := opened_balance hO hc (filtersOf fe bl)
  obtain ⟨_, b2', b3', _, _, hR', _⟩ := opened_balance hO' hc' (filtersOf fe bl)
  rw [hdflt, hdecls] at hR'
  have hperm := resolved_names_perm hR hR'
  have hu : ∀ a, ownUnits (accts.map (·.fullName)) compile (filtersOf fe bl) st'.txns a = ownUnits (accts.map (·.fullName)) compile (filtersOf fe bl) st.txns a := by
    intro x
    rw [← show ownUnits (accts'.map (·.fullName)) compile (filtersOf fe bl) st'.txns x = ownUnits (accts.map (·.fullName)) compile (filtersOf fe bl) st'.txns x from ownUnits_perm hperm _ _ _ _]
    rw [hunits (filtersOf fe bl) x (fun _ => 0) ?_]
    · simp
    · intro t _ r _ hfull
      obtain ⟨hps, _⟩ := modifyTxn_read m r
      have hr : ∀ q ∈ r.postings, q.account ∈ accts.map (·.fullName) ∧ ∃ k, q.quantity = some k := fun q hq => by
        obtain ⟨k1, k, k2, _⟩ := hfull q hq
        exact ⟨k1, k, k2⟩
      have hsm : List.Forall₂ (fun p q : PPost => q.account = p.account ∧ q.quantity = p.quantity) r.postings (modifyTxn m r).1.postings := hps.imp fun p q k => by
        refine ⟨?_, k.1⟩
        rcases k.2.2.1 with e | e
        · exact e
        · rw [htgt] at e; cases e
      have hm : ∀ q ∈ (modifyTxn m r).1.postings, q.account ∈ accts.map (·.fullName) ∧ ∃ k, q.quantity = some k := by
        intro q hq
        obtain ⟨p, hp, k1, k2⟩ := forall2_mem_right hsm q hq
        rw [k1, k2]
        exact hr p hp
      obtain ⟨e1, _, e3, _, _⟩ := C49_nothing_else m r
      rw [txnUnits_full htag x hr, txnUnits_full htag x hm, e1, e3]
      clear hm hr hfull hps e1 e3
      generalize (modifyTxn m r).1.postings = qs at hsm
      generalize Passes compile (filtersOf fe bl) r.posted r.description = Q
      generalize r.postings = ps at hsm
      induction hsm with
      | nil => rfl
      | @cons p q ps qs h _ ih =>
        simp only [List.map_cons, List.sum_cons]
        have hpu : postUnits q = postUnits p := by unfold postUnits; rw [h.2]
        rw [h.1, hpu]
        omega
  unfold coinMain
  rw [dispatch_written hw hl ht]
  show (balanceMain fe g' bl args).bind _ = (balanceMain fe g bl args).bind _
  congr 1
  unfold balanceMain
  have hfind : ∀ a, g'.find a = g.find a := by
    intro a
    unfold LedgerView.find
    rw [b2, b2', b3, b3']
    exact (mustFind_perm hperm _ _).symm
  have hacc : g'.account args = g.account args := by
    cases args with
    | nil => rfl
    | cons a rest => exact hfind a
  rw [hacc]
  cases hr : g.account args with
  | error e => rfl
  | ok r =>
    have hm : r ∈ accts.map (·.fullName) := by
      rcases (asked_of b2 b3).mp hr with ⟨_, rfl⟩ | ⟨a, rest, _, hf⟩
      · exact (resolved_spec _ _ _ _ hR).2.2.2.2
      · exact mustFind_mem hn hf
    exact balance_same hO hO' hp hdflt hdecls hc hc' _ hv hu _ _ hm

/-- **C179** When the flags change no transaction of the file, `modify` writes what `format -i` writes. -/
theorem C179_idle (P P' : Install) (compile : Compile) (st0 : LoadState) (accts0 : List Acct) (fn : Str) (fe : FlagEnv) (w : Str) (fl : List (Str × Str)) (toks : List (List Str)) (tail : List Str)
    (hw : commandOf w = some .modify) (hwr : List.Forall₂ (Written fe (flagsOf .modify)) fl toks) (hrem : Remaining tail [fn])
    {err : Str} (hP : modifyMain fe compile P st0 accts0 (w :: (toks.flatten ++ tail)) = .ok (P', err))
    (hidle : (textFlag fl (str "a:") [] = [] ∧ textFlag fl (str "pt:") [] = [] ∧ textFlag fl (str "tt:") [] = []) ∨
      ∀ l, loadFileS P.disk P.today P.limit st0 fn = .ok l → ∀ t ∈ l.txns, ¬ ModifyPicks compile (textFlag fl (str "p") []) (textFlag fl (str "tt") []) t) :
    formatInPlace P false st0 accts0 fn = .ok P' := by
  obtain ⟨m, l, rs, lines, g5, g1, g2, g3, rfl, _⟩ := modifyMain_ok hw hwr hrem hP
  have hsame : ∀ t ∈ rs, (modifyTxn m t).1 = t := by
    intro t ht
    rcases hidle with ⟨h1, h2, h3⟩ | hno
    · obtain ⟨_, f2, _, _, _, f6, f7⟩ := modifyOf_ok g5
      have htgt : m.target = none := by
        rcases optArg_ok f2 with ⟨_, e⟩ | ⟨e, _⟩
        · exact e
        · exact absurd h1 e
      have e1 : m.setPTag = [] := by rw [h2] at f6; exact (Except.ok.inj f6).symm
      have e2 : m.setTTag = [] := by rw [h3] at f7; exact (Except.ok.inj f7).symm
      have he : ¬ Effective m := by
        rintro (k | k)
        · exact k htgt
        · exact k e1
      unfold modifyTxn
      split
      · rfl
      · rw [modifyLoop_idle m _ he]
        dsimp only
        split <;> rfl
    · have hs : modifySelects m t = false := by
        rw [← Bool.not_eq_true, selects_flags g5]
        unfold resolveP at g2
        obtain ⟨us, h5, h7⟩ := bind_ok.mp g2
        have h6 : stableSort pLess us = rs := Except.ok.inj h7
        rw [← h6] at ht
        obtain ⟨t0, ht0, hres⟩ := forall2_mem_right ((mapM_ok _ _ _).mp h5) t ((stableSort_perm _ _).mem_iff.mp ht)
        intro hx
        apply hno l g1 t0 ht0
        unfold resolvePTxn at hres
        obtain ⟨ps, _, k⟩ := bind_ok.mp hres
        have k : ({ t0 with postings := ps } : PTxn) = t := Except.ok.inj k
        rw [← k] at hx
        exact hx
      unfold modifyTxn
      rw [if_pos hs]
  have e : rs.map (fun t => (modifyTxn m t).1) = rs := by
    conv_rhs => rw [← List.map_id rs]
    exact List.map_congr_left hsame
  rw [e] at g3
  unfold formatInPlace
  refine bind_ok.mpr ⟨l, g1, bind_ok.mpr ⟨rs, ?_, bind_ok.mpr ⟨lines, g3, rfl⟩⟩⟩
  unfold formatTxns
  refine bind_ok.mpr ⟨rs, g2, ?_⟩
  have : trimTxn false = id := rfl
  rw [this, List.map_id]

/-! ## An example

The ledger of the register part of C176; `coin modify -a Food -a: Unbalanced --tt:=#moved transactions.coin`. -/

def mkNew : Str := str "2020/01/02 Shop ; #moved\n  Unbalanced    3.50 CAD\n  Assets:Cash  -3.50 CAD\n\n2020/01/02 Pay\n  Assets:Cash   10.00 CAD = 6.50 CAD\n  Unbalanced   -10.00 CAD\n\n"
def mkFlags : List (Str × Str) := [(str "a", str "Food"), (str "a:", str "Unbalanced"), (str "tt:", str "#moved")]
def mkModify : Modify := ⟨some (str "Food"), some (str "Unbalanced"), none, none, none, str "#moved", []⟩
def mkAfter : Install := { rkInstall with disk := rkInstall.disk.put fkFile mkNew }
def mkTxns' : List PTxn :=
  [⟨737425, [], str "Shop", [str "#moved"], [⟨str "Unbalanced", some ⟨350, progCad⟩, none, []⟩, ⟨str "Assets:Cash", some ⟨-350, progCad⟩, none, []⟩]⟩, rkPay (str "Assets:Cash")]

theorem mk_loads' : loadAllS mkAfter.disk mkAfter.today mkAfter.limit mkAfter.files ⟨[], str "CAD", []⟩ = .ok (fkState mkTxns') := load_eq (by decide +kernel)
theorem mk_open' : Opened mkAfter (fun _ => none) (fkState mkTxns') fkAccts (fkView mkTxns' fun _ => none) :=
  (fk_opens mkAfter mkTxns' (fun _ => none) mk_loads' (by decide +kernel)).1

theorem mk_flags : modifyOf (fun _ => none) (fkAccts.map (·.fullName)) mkFlags = .ok mkModify := by
  unfold modifyOf
  refine bind_ok.mpr ⟨some (str "Food"), ok_of_opt (by decide +kernel), bind_ok.mpr ⟨some (str "Unbalanced"), ok_of_opt (by decide +kernel), bind_ok.mpr ⟨none, ?_,
    bind_ok.mpr ⟨none, ?_, bind_ok.mpr ⟨none, ?_, bind_ok.mpr ⟨[], ok_of_opt (by decide +kernel), bind_ok.mpr ⟨str "#moved", ok_of_opt (by decide +kernel), rfl⟩⟩⟩⟩⟩⟩⟩
  · unfold optArg; rw [if_pos (by decide +kernel)]
  · unfold optArg; rw [if_pos (by decide +kernel)]
  · unfold optArg; rw [if_pos (by decide +kernel)]

theorem mk_written : List.Forall₂ (Written cmdFlags (flagsOf .modify)) mkFlags [[str "-a", str "Food"], [str "-a:", str "Unbalanced"], [str "--tt:=#moved"]] :=
  .cons (.next (d := ['-']) (name := str "a") (k := .text) (by unfold Dashes; decide) (by decide) (by decide) rfl)
    (.cons (.next (d := ['-']) (name := str "a:") (k := .text) (by unfold Dashes; decide) (by decide) (by decide) rfl)
      (.cons (.equals (d := ['-', '-']) (name := str "tt:") (v := str "#moved") (k := .text) (by unfold Dashes; decide) (by decide) rfl) .nil))

theorem modifyMain_written {env : FlagEnv} {compile : Compile} {P : Install} {st : LoadState} {accts : List Acct} {w : Str} {fl : List (Str × Str)} {toks : List (List Str)}
    {tail args : List Str} (hw : commandOf w = some .modify) (hl : List.Forall₂ (Written env (flagsOf .modify)) fl toks) (ht : Remaining tail args) :
    modifyMain env compile P st accts (w :: (toks.flatten ++ tail)) = (modifyOf compile (accts.map (·.fullName)) fl).bind fun m => modifyFiles m accts P st args := by
  unfold modifyMain
  rw [dispatch_written hw hl ht]
  rfl

theorem mk_runs : modifyMain cmdFlags (fun _ => none) rkInstall fkState0 fkAccts
    (str "modify" :: ([[str "-a", str "Food"], [str "-a:", str "Unbalanced"], [str "--tt:=#moved"]].flatten ++ [fkFile])) = .ok (mkAfter, str "Updated 1 transactions in transactions.coin\n") := by
  rw [modifyMain_written (by decide) mk_written (.plain (.inr (by decide)))]
  refine bind_ok.mpr ⟨mkModify, mk_flags, ?_⟩
  have e1 : loadFileS rkInstall.disk rkInstall.today rkInstall.limit fkState0 fkFile = .ok (fkState rkTxns) := load_eq (by decide +kernel)
  have e2 : resolveP (formatEnv fkState0 fkAccts) rkTxns = .ok rkTxns' := ok_of_opt (by decide +kernel)
  have e3 : ∃ lines, writeTxns (fun a => (fkState0.comOf fkAccts a).decimals) (rkTxns'.map fun t => (modifyTxn mkModify t).1) = .ok lines ∧ textOf lines = mkNew := by
    have h : (writeTxns (fun a => (fkState0.comOf fkAccts a).decimals) (rkTxns'.map fun t => (modifyTxn mkModify t).1)).toOption.map textOf = some mkNew := by decide +kernel
    cases hx : writeTxns (fun a => (fkState0.comOf fkAccts a).decimals) (rkTxns'.map fun t => (modifyTxn mkModify t).1) with
    | error e => rw [hx] at h; cases h
    | ok r => rw [hx] at h; exact ⟨r, rfl, Option.some.inj h⟩
  obtain ⟨lines, e3, e4⟩ := e3
  have e5 : modifyFile rkInstall mkModify fkState0 fkAccts fkFile =
      .ok (mkAfter, { fkState rkTxns with items := (fkState rkTxns).items.filter fun i => (itemTxn i).isNone }, str "Updated 1 transactions in transactions.coin\n") := by
    unfold modifyFile
    refine bind_ok.mpr ⟨_, e1, bind_ok.mpr ⟨rkTxns', ?_, bind_ok.mpr ⟨lines, e3, ?_⟩⟩⟩
    · rw [fkState_txns]; exact e2
    · rw [e4, show updatedLine (rkTxns'.filter fun t => (modifyTxn mkModify t).2).length fkFile = str "Updated 1 transactions in transactions.coin\n" by decide +kernel]
      rfl
  unfold modifyFiles
  rw [e5]
  rfl

theorem mk_settled : ∀ t ∈ rkTxns', Settled (modifyTxn mkModify t).1 := by
  have h : rkTxns'.map (fun t => (modifyTxn mkModify t).1) = mkTxns' := by decide +kernel
  intro t ht
  have ht : (modifyTxn mkModify t).1 ∈ mkTxns' := by rw [← h]; exact List.mem_map_of_mem ht
  generalize (modifyTxn mkModify t).1 = u at ht
  unfold mkTxns' at ht
  simp only [List.mem_cons, List.not_mem_nil, or_false] at ht
  rcases ht with rfl | rfl
  · refine ⟨by unfold PlainYear; decide +kernel, by decide, by decide, by unfold SafeNotes; decide, by decide, ?_, ?_⟩
    · intro p hp
      simp only [List.mem_cons, List.not_mem_nil, or_false] at hp
      rcases hp with rfl | rfl <;> (unfold SafeNotes; decide)
    · intro p hp q hq
      simp only [List.mem_cons, List.not_mem_nil, or_false] at hp
      rcases hp with rfl | rfl <;> rcases hq with hq | hq <;> cases hq <;> (unfold FitsText progCad; decide)
  · exact rk_settled _ (by unfold rkTxns'; simp)

/-- The ledger and the command meet the hypotheses of C179. -/
theorem mk_run : ModifyRun rkInstall mkAfter (fun _ => none) fkState0 fkAccts fkFile progCad mkFlags := by
  refine ⟨⟨fkLinks, rk_opens0⟩, ⟨[], [], rk_file⟩, fk_one0, rk_cad, fk_names, by decide +kernel,
    ⟨cmdFlags, str "modify", _, [fkFile], _, by decide, mk_written, .plain (.inr (by decide)), mk_runs⟩, ?_, ?_, ?_⟩
  · constructor
    · intro x hx
      have hx : x ∈ str "#moved" := hx
      rcases List.mem_cons.mp hx with rfl | hx
      · decide
      · rcases List.mem_cons.mp hx with rfl | hx
        · decide
        · rcases List.mem_cons.mp hx with rfl | hx
          · decide
          · rcases List.mem_cons.mp hx with rfl | hx
            · decide
            · rcases List.mem_cons.mp hx with rfl | hx
              · decide
              · rw [List.mem_singleton.mp hx]; decide
    · intro x hx; cases hx
  · intro text h
    have : mkAfter.disk.read fkFile = some mkNew := by decide +kernel
    have e : mkNew = text := Option.some.inj (this.symm.trans h)
    rw [← e]
    unfold Long
    decide +kernel
  · intro text l h1 h2 rs m h3 h4
    rw [rk_text text l h1 h2] at h3
    have e2 : resolveP (formatEnv fkState0 fkAccts) rkTxns = .ok rkTxns' := ok_of_opt (by decide +kernel)
    rw [← Except.ok.inj (e2.symm.trans h3), ← Except.ok.inj (mk_flags.symm.trans h4)]
    exact mk_settled

theorem mk_means : Means (fkAccts.map (·.fullName)) (str "Food") (str "Food") ∧ ¬ Means (fkAccts.map (·.fullName)) (str "Cash") (str "Food") ∧
    ¬ Means (fkAccts.map (·.fullName)) (str "Unbalanced") (str "Food") ∧ Means (fkAccts.map (·.fullName)) (str "Unbalanced") (str "Unbalanced") := by
  have h1 : mustFindAccount (fkAccts.map (·.fullName)) (patternMatches (str "Food")) (str "Food") = .ok (str "Food") := ok_of_opt (by decide +kernel)
  have h2 : mustFindAccount (fkAccts.map (·.fullName)) (patternMatches (str "Cash")) (str "Cash") = .ok (str "Assets:Cash") := ok_of_opt (by decide +kernel)
  have h3 : mustFindAccount (fkAccts.map (·.fullName)) (patternMatches (str "Unbalanced")) (str "Unbalanced") = .ok (str "Unbalanced") := ok_of_opt (by decide +kernel)
  refine ⟨h1, fun k => ?_, fun k => ?_, h3⟩
  · exact absurd (Except.ok.inj (h2.symm.trans k)) (by decide)
  · exact absurd (Except.ok.inj (h3.symm.trans k)) (by decide)

theorem mk_moved {names : List Str} (m1 : Means names (str "Food") (str "Food")) (m2 : ¬ Means names (str "Cash") (str "Food")) (m3 : ¬ Means names (str "Unbalanced") (str "Food")) :
    movedIn names (fun _ => none) [] [] ⟨none, none, [], []⟩ (str "Food") (fkShop (str "Cash") none) = 350 ∧
    movedIn names (fun _ => none) [] [] ⟨none, none, [], []⟩ (str "Food") (rkPay (str "Cash")) = 0 := by
  classical
  have hm : ∀ t : PTxn, ModifyPicks (fun _ => none) [] [] t := fun t => ⟨fun k => absurd rfl k, fun k => absurd rfl k⟩
  have hk : ∀ (t : PTxn) p, Picks (fun _ => none) ⟨none, none, [], []⟩ t p :=
    fun t p => ⟨(by intro b hb; cases hb), (by intro b hb; cases hb), fun k => absurd rfl k, fun k => absurd rfl k⟩
  constructor
  · unfold movedIn fkShop
    dsimp only
    rw [List.find?_cons_of_pos (p := fun p : PPost => decide (Means names p.account (str "Food"))) (decide_eq_true m1)]
    dsimp only
    rw [if_pos ⟨hm _, hk _ _⟩]
    rfl
  · unfold movedIn rkPay
    dsimp only
    rw [List.find?_cons_of_neg (p := fun p : PPost => decide (Means names p.account (str "Food"))) (fun k => m2 (of_decide_eq_true k)), List.find?_cons_of_neg (p := fun p : PPost => decide (Means names p.account (str "Food"))) (fun k => m3 (of_decide_eq_true k))]
    rfl

/-- What the groceries cost has moved: 3.50 from `Food` to `Unbalanced`. -/
example (x : Str) : ownUnits (fkAccts.map (·.fullName)) (fun _ => none) ⟨none, none, [], []⟩ (fkState mkTxns').txns x =
    ownUnits (fkAccts.map (·.fullName)) (fun _ => none) ⟨none, none, [], []⟩ (fkState rkTxns).txns x +
      ((if x = str "Unbalanced" then 1 else 0) - (if x = str "Food" then 1 else 0)) * 350 := by
  classical
  obtain ⟨text, l, h1, h2, h3⟩ := C179_moves rkInstall mkAfter (fun _ => none) fkState0 (fkState rkTxns) (fkState mkTxns') fkAccts fkAccts fkAccts _ _ fkFile progCad mkFlags
    mk_run rk_open mk_open' (fk_one rkTxns (by decide +kernel)) (.refl _) (by decide +kernel) (str "Food") (str "Unbalanced") (by decide +kernel) (by decide +kernel)
    mk_means.1 mk_means.2.2.2
  rw [h3 ⟨none, none, [], []⟩ rfl x, rk_text text l h1 h2]
  congr 2
  have hp : textFlag mkFlags (str "p") [] = [] := by decide +kernel
  have ht : textFlag mkFlags (str "tt") [] = [] := by decide +kernel
  rw [hp, ht]
  obtain ⟨e1, e2⟩ := mk_moved mk_means.1 mk_means.2.1 mk_means.2.2.1
  unfold rkTxns
  rw [List.map_cons, List.map_cons, List.map_nil, e1, e2]
  rfl

end Verif
