import Verif.Props.ModifyCount
import Verif.Props.LedgerOut
/-
C181: `format` and `modify` take their files one by one, and what `format` prints is what `format -i` writes.
-/
namespace Verif

/-! ## Specification -/

/-- Reading the file adds transactions to what is loaded and nothing else, and neither the file of commodities nor that of accounts includes it;
these hold no transactions. -/
def AddsTransactions (P : Install) (st : LoadState) (fn : Str) : Prop :=
  (∃ ts : List PTxn, loadFileS P.disk P.today P.limit st fn = .ok { st with items := st.items ++ ts.map Item.transaction }) ∧ st.txns = [] ∧
    ∀ g, g = P.files.commodities ∨ g = P.files.accounts → ¬ Relation.ReflTransGen (Includes P.disk) g fn

/-! ## Proofs -/

theorem drop_loaded {st : LoadState} (h : st.txns = []) (ts : List PTxn) :
    ({ st with items := (st.items ++ ts.map Item.transaction).filter fun i => (itemTxn i).isNone } : LoadState) = st := by
  have h1 : st.items.filter (fun i => (itemTxn i).isNone) = st.items := by
    rw [List.filter_eq_self]
    intro i hi
    have := List.filterMap_eq_nil_iff.mp (show st.items.filterMap itemTxn = [] from h) i hi
    rw [this]; rfl
  have h2 : (ts.map Item.transaction).filter (fun i => (itemTxn i).isNone) = [] := by
    rw [List.filter_eq_nil_iff]
    intro i hi
    obtain ⟨t, _, rfl⟩ := List.mem_map.mp hi
    intro k; cases k
  rw [List.filter_append, h1, h2, List.append_nil]

theorem reopened {P : Install} {st : LoadState} {accts : List Acct} {L : Links} {fn new : Str} (hA : AccountsOpened P st accts L)
    (hfn : ∀ g, g = P.files.commodities ∨ g = P.files.accounts → ¬ Relation.ReflTransGen (Includes P.disk) g fn) :
    AccountsOpened { P with disk := P.disk.put fn new } st accts L := by
  obtain ⟨h1, h2⟩ := hA
  refine ⟨?_, h2⟩
  obtain ⟨s, k1, k2⟩ := bind_ok.mp h1
  exact bind_ok.mpr ⟨s, loadFileS_away _ _ _ _ _ (hfn _ (.inl rfl)) k1, loadFileS_away _ _ _ _ _ (hfn _ (.inr rfl)) k2⟩

theorem modifyMain_args {env : FlagEnv} {compile : Compile} {P : Install} {st : LoadState} {accts : List Acct} {w : Str} {fl : List (Str × Str)} {toks : List (List Str)}
    {tail args : List Str} (hw : commandOf w = some .modify) (hl : List.Forall₂ (Written env (flagsOf .modify)) fl toks) (ht : Remaining tail args) :
    modifyMain env compile P st accts (w :: (toks.flatten ++ tail)) = (modifyOf compile (accts.map (·.fullName)) fl).bind fun m => modifyFiles m accts P st args :=
  modifyMain_written hw hl ht

theorem formatMain_args {env : FlagEnv} {P : Install} {st : LoadState} {accts : List Acct} {w : Str} {fl : List (Str × Str)} {toks : List (List Str)}
    {tail args : List Str} (hw : commandOf w = some .format) (hl : List.Forall₂ (Written env (flagsOf .format)) fl toks) (ht : Remaining tail args) :
    formatMain env P st accts (w :: (toks.flatten ++ tail)) = formatLoop (boolFlag fl (str "ledger")) (boolFlag fl (str "i")) (boolFlag fl (str "t")) accts P st args := by
  unfold formatMain
  rw [dispatch_written hw hl ht]
  rfl

/-- **C181** `modify` of several files does what `modify` of the first and then `modify` of the others does. -/
theorem C181_modify_one_by_one (env : FlagEnv) (compile : Compile) (P : Install) (st : LoadState) (accts : List Acct) (L : Links) (w : Str) (fl : List (Str × Str))
    (toks : List (List Str)) (tail tail1 tail2 : List Str) (f : Str) (fs : List Str) (hA : AccountsOpened P st accts L) (hf : AddsTransactions P st f)
    (hw : commandOf w = some .modify) (hl : List.Forall₂ (Written env (flagsOf .modify)) fl toks)
    (ht : Remaining tail (f :: fs)) (ht1 : Remaining tail1 [f]) (ht2 : Remaining tail2 fs) (P'' : Install) (err : Str) :
    modifyMain env compile P st accts (w :: (toks.flatten ++ tail)) = .ok (P'', err) ↔
      ∃ P' e1 e2, modifyMain env compile P st accts (w :: (toks.flatten ++ tail1)) = .ok (P', e1) ∧ AccountsOpened P' st accts L ∧
        modifyMain env compile P' st accts (w :: (toks.flatten ++ tail2)) = .ok (P'', e2) ∧ err = e1 ++ e2 := by
  obtain ⟨⟨ts, hload⟩, hnone, haway⟩ := hf
  rw [modifyMain_args hw hl ht, modifyMain_args hw hl ht1]
  simp only [modifyMain_args hw hl ht2]
  have hfile : ∀ m r, modifyFile P m st accts f = .ok r → r.2.1 = st ∧ AccountsOpened r.1 st accts L := by
    intro m r h
    unfold modifyFile at h
    rw [hload] at h
    obtain ⟨_, h0, h⟩ := bind_ok.mp h
    cases h0
    obtain ⟨rs, _, h⟩ := bind_ok.mp h
    obtain ⟨lines, _, h⟩ := bind_ok.mp h
    cases h
    exact ⟨drop_loaded hnone ts, reopened hA haway⟩
  constructor
  · intro h
    obtain ⟨m, hm, h⟩ := bind_ok.mp h
    rw [modifyFiles] at h
    obtain ⟨r, h1, h⟩ := bind_ok.mp h
    obtain ⟨r', h2, h⟩ := bind_ok.mp h
    cases h
    obtain ⟨k1, k2⟩ := hfile m r h1
    rw [k1] at h2
    refine ⟨r.1, r.2.2, r'.2, bind_ok.mpr ⟨m, hm, ?_⟩, k2, bind_ok.mpr ⟨m, hm, h2⟩, rfl⟩
    rw [modifyFiles, h1]
    show Except.ok (r.1, r.2.2 ++ []) = _
    rw [List.append_nil]
  · rintro ⟨P', e1, e2, h1, _, h2, rfl⟩
    obtain ⟨m, hm, h1⟩ := bind_ok.mp h1
    obtain ⟨m', hm', h2⟩ := bind_ok.mp h2
    cases hm.symm.trans hm'
    rw [modifyFiles] at h1
    obtain ⟨r, h3, h1⟩ := bind_ok.mp h1
    obtain ⟨r', h4, h1⟩ := bind_ok.mp h1
    cases h4
    cases h1
    obtain ⟨k1, _⟩ := hfile m r h3
    refine bind_ok.mpr ⟨m, hm, ?_⟩
    rw [modifyFiles, h3]
    refine bind_ok.mpr ⟨r, rfl, bind_ok.mpr ⟨(P'', e2), ?_, ?_⟩⟩
    · rw [k1]; exact h2
    · rw [List.append_nil]

/-- **C181** `format` of several files does what `format` of the first and then `format` of the others does; what is printed stands one
after the other. -/
theorem C181_format_one_by_one (env : FlagEnv) (P : Install) (st : LoadState) (accts : List Acct) (L : Links) (w : Str) (fl : List (Str × Str))
    (toks : List (List Str)) (tail tail1 tail2 : List Str) (f : Str) (fs : List Str) (hA : AccountsOpened P st accts L) (hf : AddsTransactions P st f)
    (hw : commandOf w = some .format) (hl : List.Forall₂ (Written env (flagsOf .format)) fl toks)
    (ht : Remaining tail (f :: fs)) (ht1 : Remaining tail1 [f]) (ht2 : Remaining tail2 fs) (P'' : Install) (out : Str) :
    formatMain env P st accts (w :: (toks.flatten ++ tail)) = .ok (P'', out) ↔
      ∃ P' o1 o2, formatMain env P st accts (w :: (toks.flatten ++ tail1)) = .ok (P', o1) ∧ AccountsOpened P' st accts L ∧
        formatMain env P' st accts (w :: (toks.flatten ++ tail2)) = .ok (P'', o2) ∧ out = o1 ++ o2 := by
  obtain ⟨⟨ts, hload⟩, hnone, haway⟩ := hf
  rw [formatMain_args hw hl ht, formatMain_args hw hl ht1]
  simp only [formatMain_args hw hl ht2]
  generalize boolFlag fl (str "ledger") = lg
  generalize boolFlag fl (str "i") = ip
  generalize boolFlag fl (str "t") = tr
  have hfile : ∀ r, formatFile P lg ip tr st accts f = .ok r → r.2.1 = st ∧ AccountsOpened r.1 st accts L := by
    intro r h
    unfold formatFile at h
    rw [hload] at h
    obtain ⟨_, h0, h⟩ := bind_ok.mp h
    cases h0
    obtain ⟨rs, _, h⟩ := bind_ok.mp h
    obtain ⟨lines, _, h⟩ := bind_ok.mp h
    cases h
    refine ⟨drop_loaded hnone ts, ?_⟩
    cases ip
    · exact hA
    · exact reopened hA haway
  rw [formatLoop, formatLoop]
  constructor
  · intro h
    obtain ⟨r, h1, h⟩ := bind_ok.mp h
    obtain ⟨r', h2, h⟩ := bind_ok.mp h
    cases h
    obtain ⟨k1, k2⟩ := hfile r h1
    rw [k1] at h2
    refine ⟨r.1, r.2.2, r'.2, bind_ok.mpr ⟨r, h1, ?_⟩, k2, h2, rfl⟩
    rw [formatLoop]
    show Except.ok (r.1, r.2.2 ++ []) = _
    rw [List.append_nil]
  · rintro ⟨P', o1, o2, h1, _, h2, rfl⟩
    obtain ⟨r, h3, h1⟩ := bind_ok.mp h1
    rw [formatLoop] at h1
    obtain ⟨r', h4, h1⟩ := bind_ok.mp h1
    cases h4
    cases h1
    obtain ⟨k1, _⟩ := hfile r h3
    refine bind_ok.mpr ⟨r, h3, bind_ok.mpr ⟨(P'', o2), ?_, ?_⟩⟩
    · rw [k1]; exact h2
    · rw [List.append_nil]

/-- **C181** Without `-i` no file changes, and what is printed for a file is what the same command with `-i` writes into it. -/
theorem C181_prints_what_it_writes (env : FlagEnv) (P : Install) (st : LoadState) (accts : List Acct) (w w' : Str) (fl fl' : List (Str × Str)) (toks toks' : List (List Str))
    (tail tail' : List Str) (f : Str) (hw : commandOf w = some .format) (hw' : commandOf w' = some .format) (hl : List.Forall₂ (Written env (flagsOf .format)) fl toks)
    (hl' : List.Forall₂ (Written env (flagsOf .format)) fl' toks') (ht : Remaining tail [f]) (ht' : Remaining tail' [f])
    (hi : boolFlag fl (str "i") = false) (hi' : boolFlag fl' (str "i") = true) (hg : boolFlag fl' (str "ledger") = boolFlag fl (str "ledger"))
    (htr : boolFlag fl' (str "t") = boolFlag fl (str "t")) (P' : Install) (out : Str) :
    formatMain env P st accts (w :: (toks.flatten ++ tail)) = .ok (P', out) ↔
      P' = P ∧ formatMain env P st accts (w' :: (toks'.flatten ++ tail')) = .ok ({ P with disk := P.disk.put f out }, []) := by
  rw [formatMain_args hw hl ht, formatMain_args hw' hl' ht', hi, hi', hg, htr]
  generalize boolFlag fl (str "ledger") = lg
  generalize boolFlag fl (str "t") = tr
  have key : ∀ b, formatLoop lg b tr accts P st [f] = (formatFile P lg b tr st accts f).bind fun r => .ok (r.1, r.2.2) := by
    intro b
    rw [formatLoop]
    congr 1
    funext r
    show Except.ok (r.1, r.2.2 ++ []) = _
    rw [List.append_nil]
  rw [key, key]
  unfold formatFile
  cases loadFileS P.disk P.today P.limit st f with
  | error e => exact iff_of_false (fun h => by cases h) (fun h => by cases h.2)
  | ok l =>
    simp only [Except.bind]
    cases formatTxns (formatEnv st accts) tr l.txns with
    | error e => exact iff_of_false (fun h => by cases h) (fun h => by cases h.2)
    | ok ts =>
      simp only
      cases writeTxnsL lg (fun a => (st.comOf accts a).decimals) ts with
      | error e => exact iff_of_false (fun h => by cases h) (fun h => by cases h.2)
      | ok lines =>
        simp only
        constructor
        · intro h
          cases h
          exact ⟨rfl, rfl⟩
        · rintro ⟨rfl, h⟩
          have h1 := congrArg (fun r : Except Fault (Install × Str) => r.toOption.map fun x => x.1.disk.read f) h
          have h2 : some (some (textOf lines)) = some (some out) := by
            have e : ∀ t, (P'.disk.put f t).read f = some t := fun t => if_pos rfl
            simpa [Except.toOption, e] using h1
          cases h2
          rfl

/-- `format -i FILE` on the command line is what C176 is about. -/
theorem C181_in_place (env : FlagEnv) (P P' : Install) (st : LoadState) (accts : List Acct) (w : Str) (fl : List (Str × Str)) (toks : List (List Str)) (tail : List Str) (f : Str)
    (hw : commandOf w = some .format) (hl : List.Forall₂ (Written env (flagsOf .format)) fl toks) (ht : Remaining tail [f])
    (hi : boolFlag fl (str "i") = true) (hg : boolFlag fl (str "ledger") = false) :
    formatMain env P st accts (w :: (toks.flatten ++ tail)) = .ok (P', []) ↔ formatInPlace P (boolFlag fl (str "t")) st accts f = .ok P' := by
  rw [formatMain_args hw hl ht, hi, hg, formatLoop]
  generalize boolFlag fl (str "t") = tr
  unfold formatFile formatInPlace
  cases loadFileS P.disk P.today P.limit st f with
  | error e => exact iff_of_false (fun h => by cases h) (fun h => by cases h)
  | ok l =>
    simp only [Except.bind]
    cases formatTxns (formatEnv st accts) tr l.txns with
    | error e => exact iff_of_false (fun h => by cases h) (fun h => by cases h)
    | ok ts =>
      simp only
      rw [writeTxnsL_plain false _ _ (by simp)]
      cases writeTxns (fun a => (st.comOf accts a).decimals) ts with
      | error e => exact iff_of_false (fun h => by cases h) (fun h => by cases h)
      | ok lines =>
        simp only [formatLoop]
        constructor
        · intro h; cases h; rfl
        · intro h; cases h; rfl

/-! ## An example -/

/-- The file of transactions of the ledger of C176 meets the hypotheses. -/
theorem ob_adds : AddsTransactions rkInstall fkState0 fkFile := by
  refine ⟨⟨rkTxns, load_eq (by decide +kernel)⟩, by decide +kernel, ?_⟩
  intro g hg hr
  exact rk_file.away g (by rcases hg with h | h; exacts [.inl h, .inr (.inr (.inl h))]) hr

theorem ob_in_place : formatMain cmdFlags rkInstall fkState0 fkAccts [str "format", str "-i", fkFile] = .ok (rkAfter, []) :=
  (C181_in_place cmdFlags rkInstall rkAfter fkState0 fkAccts (str "format") [(str "i", str "true")] [[str "-i"]] [fkFile] fkFile (by decide)
    (.cons (.bare (d := ['-']) (name := str "i") (by unfold Dashes; decide) (by decide)) .nil) (.plain (.inr (by decide))) (by decide) (by decide)).mpr rk_formats

/-- `coin format transactions.coin` prints the text that `coin format -i transactions.coin` writes. -/
theorem ob_prints : formatMain cmdFlags rkInstall fkState0 fkAccts [str "format", fkFile] = .ok (rkInstall, rkNew) :=
  (C181_prints_what_it_writes cmdFlags rkInstall fkState0 fkAccts (str "format") (str "format") [] [(str "i", str "true")] [] [[str "-i"]] [fkFile] [fkFile] fkFile (by decide) (by decide)
    .nil (.cons (.bare (d := ['-']) (name := str "i") (by unfold Dashes; decide) (by decide)) .nil) (.plain (.inr (by decide))) (.plain (.inr (by decide)))
    (by decide) (by decide) (by decide) (by decide) rkInstall rkNew).mpr ⟨rfl, ob_in_place⟩

/-- Naming the file twice prints it twice. -/
example : formatMain cmdFlags rkInstall fkState0 fkAccts [str "format", fkFile, fkFile] = .ok (rkInstall, rkNew ++ rkNew) :=
  (C181_format_one_by_one cmdFlags rkInstall fkState0 fkAccts fkLinks (str "format") [] [] [fkFile, fkFile] [fkFile] [fkFile] fkFile [fkFile] rk_opens0 ob_adds (by decide)
    .nil (.plain (.inr (by decide))) (.plain (.inr (by decide))) (.plain (.inr (by decide))) rkInstall _).mpr ⟨rkInstall, rkNew, rkNew, ob_prints, rk_opens0, ob_prints, rfl⟩

/-- Modifying the file twice: the second time there is nothing left on the account. -/
example (P' P'' : Install) (e1 e2 : Str) (h1 : modifyMain cmdFlags (fun _ => none) rkInstall fkState0 fkAccts
      (str "modify" :: ([[str "-a", str "Food"], [str "-a:", str "Unbalanced"]].flatten ++ [fkFile])) = .ok (P', e1))
    (h0 : AccountsOpened P' fkState0 fkAccts fkLinks)
    (h2 : modifyMain cmdFlags (fun _ => none) P' fkState0 fkAccts
      (str "modify" :: ([[str "-a", str "Food"], [str "-a:", str "Unbalanced"]].flatten ++ [fkFile])) = .ok (P'', e2)) :
    modifyMain cmdFlags (fun _ => none) rkInstall fkState0 fkAccts
      (str "modify" :: ([[str "-a", str "Food"], [str "-a:", str "Unbalanced"]].flatten ++ [fkFile, fkFile])) = .ok (P'', e1 ++ e2) :=
  (C181_modify_one_by_one cmdFlags (fun _ => none) rkInstall fkState0 fkAccts fkLinks (str "modify") mdFlags _ [fkFile, fkFile] [fkFile] [fkFile] fkFile [fkFile] rk_opens0 ob_adds
    (by decide) md_written (.plain (.inr (by decide))) (.plain (.inr (by decide))) (.plain (.inr (by decide))) P'' _).mpr ⟨P', e1, e2, h1, h0, h2, rfl⟩

end Verif
