import Verif.Props.ModifyKeeps
/-
C180: the number of transactions `coin modify` reports as updated.
-/
namespace Verif

/-- A transaction is changed by the command. -/
def ChangedBy (m : Modify) (t : PTxn) : Prop := (modifyTxn m t).1 ≠ t

open Classical in
/-- **C180** `coin modify FLAGS FILE` reports the number of transactions of the file that it changed. -/
def C180_Statement : Prop :=
  ∀ (env : FlagEnv) (compile : Compile) (P P' : Install) (st : LoadState) (accts : List Acct) (w : Str) (fl : List (Str × Str)) (toks : List (List Str)) (tail : List Str)
    (fn err : Str) (m : Modify) (l : LoadState) (rs : List PTxn), commandOf w = some .modify → List.Forall₂ (Written env (flagsOf .modify)) fl toks → Remaining tail [fn] →
    modifyMain env compile P st accts (w :: (toks.flatten ++ tail)) = .ok (P', err) →
    modifyOf compile (accts.map (·.fullName)) fl = .ok m → loadFileS P.disk P.today P.limit st fn = .ok l → resolveP (formatEnv st accts) l.txns = .ok rs →
    err = str "Updated " ++ natStr (rs.filter fun t => decide (ChangedBy m t)).length ++ str " transactions in " ++ fn ++ str "\n"

theorem mustParse_ne {val line : Str} (h : mustParseTags val = .ok line) : line ≠ [] := by
  unfold mustParseTags at h
  simp only [] at h
  split at h
  · cases h
  · next hne =>
    cases h
    rw [ne_eq, join_nil_iff (by
      intro v hv
      obtain ⟨k, _, rfl⟩ := List.mem_map.mp hv
      simp), List.map_eq_nil_iff]
    intro hk
    apply hne
    have := (stableSort_perm strLt ((parseTags [val]).map (·.1))).length_eq
    rw [show stableSort strLt ((parseTags [val]).map (·.1)) = tagKeys (parseTags [val]) from rfl, hk] at this
    exact List.length_eq_zero_iff.mp (by simpa using this.symm)

theorem first_concerned (m : Modify) : ∀ ps : List PPost, (∃ p ∈ ps, Concerned m p) → ∃ pre p post, ps = pre ++ p :: post ∧ (∀ q ∈ pre, ¬ Concerned m q) ∧ Concerned m p := by
  intro ps
  induction ps with
  | nil => rintro ⟨_, h, _⟩; cases h
  | cons q ps ih =>
    rintro ⟨p, hp, hc⟩
    by_cases hq : Concerned m q
    · exact ⟨[], q, ps, rfl, (fun _ h => by cases h), hq⟩
    · rcases List.mem_cons.mp hp with rfl | hp
      · exact absurd hc hq
      · obtain ⟨pre, p', post, e, h1, h2⟩ := ih ⟨p, hp, hc⟩
        refine ⟨q :: pre, p', post, by rw [e]; rfl, ?_, h2⟩
        intro x hx
        rcases List.mem_cons.mp hx with rfl | hx
        · exact hq
        · exact h1 x hx

theorem modifyTxn_flag (m : Modify) (t : PTxn) : (modifyTxn m t).2 = true ↔ ToModify m t ∧ Effective m ∧ ∃ p ∈ t.postings, Concerned m p := by
  have key : (modifyTxn m t).2 = (modifySelects m t && (modifyLoop m false t.postings).2) := by
    unfold modifyTxn
    cases hs : modifySelects m t with
    | false => rfl
    | true =>
      simp only [Bool.true_and]
      rw [if_neg (by simp)]
      split
      · rfl
      · split <;> rfl
  rw [key, Bool.and_eq_true, selects_iff]
  refine and_congr_right fun _ => ?_
  by_cases he : Effective m
  · by_cases hc : ∃ p ∈ t.postings, Concerned m p
    · obtain ⟨pre, p, post, e, h1, h2⟩ := first_concerned m _ hc
      rw [e, modifyLoop_first m pre p post he h1 h2]
      exact iff_of_true rfl ⟨he, p, by simp, h2⟩
    · rw [modifyLoop_none m _ fun p hp h => hc ⟨p, hp, h⟩]
      exact iff_of_false Bool.false_ne_true fun h => hc h.2
  · rw [modifyLoop_idle m _ he]
    exact iff_of_false Bool.false_ne_true fun h => he h.1

open Classical in
/-- **C180** (what is reported) Whatever the flags are, the number counts the transactions that `-p` and `-tt` select and that have a posting on
the account of `-a` or with a tag of `-pt`; it is 0 without `-a:` and `-pt:`. -/
theorem C180_reported (env : FlagEnv) (compile : Compile) (P P' : Install) (st : LoadState) (accts : List Acct) (w : Str) (fl : List (Str × Str)) (toks : List (List Str))
    (tail : List Str) (fn err : Str) (m : Modify) (l : LoadState) (rs : List PTxn) (hw : commandOf w = some .modify) (hl : List.Forall₂ (Written env (flagsOf .modify)) fl toks)
    (ht : Remaining tail [fn]) (h : modifyMain env compile P st accts (w :: (toks.flatten ++ tail)) = .ok (P', err))
    (hm : modifyOf compile (accts.map (·.fullName)) fl = .ok m) (hload : loadFileS P.disk P.today P.limit st fn = .ok l) (hres : resolveP (formatEnv st accts) l.txns = .ok rs) :
    err = str "Updated " ++ natStr (rs.filter fun t => decide (ModifyPicks compile (textFlag fl (str "p") []) (textFlag fl (str "tt") []) t ∧
      (textFlag fl (str "a:") [] ≠ [] ∨ textFlag fl (str "pt:") [] ≠ []) ∧ ∃ p ∈ t.postings, Concerned m p)).length ++ str " transactions in " ++ fn ++ str "\n" := by
  obtain ⟨m', l', rs', lines, h1, h2, h3, _, _, rfl⟩ := modifyMain_ok hw hl ht h
  cases h1.symm.trans hm
  cases h2.symm.trans hload
  cases h3.symm.trans hres
  have heff : Effective m ↔ (textFlag fl (str "a:") [] ≠ [] ∨ textFlag fl (str "pt:") [] ≠ []) := by
    obtain ⟨_, f2, _, _, _, f6, _⟩ := modifyOf_ok hm
    unfold Effective
    refine or_congr ?_ ?_
    · rcases optArg_ok f2 with ⟨e1, e2⟩ | ⟨e1, a, _, e2⟩
      · rw [e1, e2]; simp
      · rw [e2]; exact iff_of_true (by simp) e1
    · unfold tagArg at f6
      split at f6
      · next hx => rw [hx, ← Except.ok.inj f6]
      · next hx =>
        refine iff_of_true ?_ hx
        exact mustParse_ne f6
  unfold updatedLine
  congr 5
  refine congrArg List.length (List.filter_congr fun t _ => ?_)
  rw [← Bool.coe_iff_coe, decide_eq_true_iff, modifyTxn_flag, heff, ← selects_flags hm, selects_iff]

theorem addTagLine_changes (notes : List Str) (line : Str) : addTagLine notes line ≠ notes := by
  cases notes with
  | nil => intro h; cases h
  | cons n ns =>
    intro h
    rw [addTagLine] at h
    by_cases hb : blen n + blen line < addTagLine.lineMaxTags
    · rw [if_pos hb] at h
      have := congrArg List.length (List.cons.inj h).1
      simp at this
    · rw [if_neg hb] at h
      have := congrArg List.length h
      simp at this

open Classical in
/-- **C180** (what does hold) The number is the number of transactions changed when the command has no `-tt:` and, unless it has `-pt:`, has no
`-pt` and moves between two different accounts. Missing: transactions that only get a tag by `-tt:` are not counted, and a posting moved to the account
it is on is. -/
theorem C180_count_partial (env : FlagEnv) (compile : Compile) (P P' : Install) (st : LoadState) (accts : List Acct) (w : Str) (fl : List (Str × Str)) (toks : List (List Str))
    (tail : List Str) (fn err : Str) (m : Modify) (l : LoadState) (rs : List PTxn) (hw : commandOf w = some .modify) (hl : List.Forall₂ (Written env (flagsOf .modify)) fl toks)
    (ht : Remaining tail [fn]) (h : modifyMain env compile P st accts (w :: (toks.flatten ++ tail)) = .ok (P', err))
    (hm : modifyOf compile (accts.map (·.fullName)) fl = .ok m) (hload : loadFileS P.disk P.today P.limit st fn = .ok l) (hres : resolveP (formatEnv st accts) l.txns = .ok rs)
    (htt : textFlag fl (str "tt:") [] = [])
    (hmove : textFlag fl (str "pt:") [] ≠ [] ∨ (textFlag fl (str "pt") [] = [] ∧
      ∀ a, Means (accts.map (·.fullName)) (textFlag fl (str "a") []) a → ¬ Means (accts.map (·.fullName)) (textFlag fl (str "a:") []) a)) :
    err = str "Updated " ++ natStr (rs.filter fun t => decide (ChangedBy m t)).length ++ str " transactions in " ++ fn ++ str "\n" := by
  obtain ⟨m', l', rs', lines, h1, h2, h3, _, _, rfl⟩ := modifyMain_ok hw hl ht h
  cases h1.symm.trans hm
  cases h2.symm.trans hload
  cases h3.symm.trans hres
  obtain ⟨f1, f2, _, _, f5, f6, f7⟩ := modifyOf_ok hm
  have e7 : m.setTTag = [] := by rw [htt] at f7; exact (Except.ok.inj f7).symm
  unfold updatedLine
  congr 5
  refine congrArg List.length (List.filter_congr fun t _ => ?_)
  rw [← Bool.coe_iff_coe, decide_eq_true_iff]
  constructor
  · intro hflag hsame
    obtain ⟨hs, he, hex⟩ := (modifyTxn_flag m t).mp hflag
    obtain ⟨pre, p, post, e, k1, k2⟩ := first_concerned m _ hex
    have hps := (C49_first_only_partial m t hs he pre p post e k1 k2).1
    rw [hsame, e] at hps
    have hp := (List.cons.inj (List.append_cancel_left hps)).1
    rcases hmove with hpt | ⟨hpt, hab⟩
    · have : m.setPTag ≠ [] := by
        unfold tagArg at f6
        rw [if_neg hpt] at f6
        exact mustParse_ne f6
      have hn := congrArg PPost.notes hp
      dsimp only at hn
      rw [if_neg this] at hn
      exact addTagLine_changes _ _ hn.symm
    · by_cases hset : m.setPTag = []
      · have htg : m.target ≠ none := by
          rcases he with k | k
          · exact k
          · exact absurd hset k
        have hpt0 : m.ptag = none := by
          rcases optArg_ok f5 with ⟨_, k⟩ | ⟨k, _⟩
          · exact k
          · exact absurd hpt k
        have hc : some p.account = m.source := by
          rcases k2 with k | k
          · exact k
          · unfold ptagMatch at k
            rw [hpt0] at k
            cases k
        rcases optArg_ok f1 with ⟨_, k⟩ | ⟨_, a, ka, k⟩
        · rw [k] at hc; cases hc
        · rw [k] at hc
          rcases optArg_ok f2 with ⟨_, k'⟩ | ⟨_, b, kb, k'⟩
          · exact htg k'
          · have hacc := congrArg PPost.account hp
            dsimp only at hacc
            rw [k'] at hacc
            have hacc : p.account = b := hacc
            have : p.account = a := Option.some.inj hc
            rw [← hacc, this] at kb
            exact hab a ka kb
      · have hn := congrArg PPost.notes hp
        dsimp only at hn
        rw [if_neg hset] at hn
        exact addTagLine_changes _ _ hn.symm
  · intro hch
    rw [modifyTxn_flag]
    by_contra hno
    apply hch
    unfold modifyTxn
    cases hs : modifySelects m t with
    | false => rfl
    | true =>
      have hloop : modifyLoop m false t.postings = (t.postings, false) := by
        by_cases he : Effective m
        · exact modifyLoop_none m _ fun p hp hc => hno ⟨(selects_iff m t).mp hs, he, p, hp, hc⟩
        · exact modifyLoop_idle m _ he
      rw [if_neg (by simp), hloop, e7]
      dsimp only
      split <;> rfl

/-! ## An example, and the witness: `coin modify -a Food --tt:=#moved transactions.coin` changes one transaction and reports none -/

def mcFlags : List (Str × Str) := [(str "a", str "Food"), (str "tt:", str "#moved")]
def mcModify : Modify := ⟨some (str "Food"), none, none, none, none, str "#moved", []⟩

theorem mc_flags : modifyOf (fun _ => none) (fkAccts.map (·.fullName)) mcFlags = .ok mcModify := by
  unfold modifyOf
  refine bind_ok.mpr ⟨some (str "Food"), ok_of_opt (by decide +kernel), bind_ok.mpr ⟨none, ok_of_opt (by decide +kernel), bind_ok.mpr ⟨none, ?_,
    bind_ok.mpr ⟨none, ?_, bind_ok.mpr ⟨none, ?_, bind_ok.mpr ⟨[], ok_of_opt (by decide +kernel), bind_ok.mpr ⟨str "#moved", ok_of_opt (by decide +kernel), rfl⟩⟩⟩⟩⟩⟩⟩
  · unfold optArg; rw [if_pos (by decide +kernel)]
  · unfold optArg; rw [if_pos (by decide +kernel)]
  · unfold optArg; rw [if_pos (by decide +kernel)]

theorem mc_written : List.Forall₂ (Written cmdFlags (flagsOf .modify)) mcFlags [[str "-a", str "Food"], [str "--tt:=#moved"]] :=
  .cons (.next (d := ['-']) (name := str "a") (k := .text) (by unfold Dashes; decide) (by decide) (by decide) rfl)
    (.cons (.equals (d := ['-', '-']) (name := str "tt:") (v := str "#moved") (k := .text) (by unfold Dashes; decide) (by decide) rfl) .nil)

theorem mc_file (m : Modify) (e : Str) (h : (writeTxns (fun a => (fkState0.comOf fkAccts a).decimals) (rkTxns'.map fun t => (modifyTxn m t).1)).toOption.isSome = true)
    (he : updatedLine (rkTxns'.filter fun t => (modifyTxn m t).2).length fkFile = e) : ∃ P', modifyFiles m fkAccts rkInstall fkState0 [fkFile] = .ok (P', e) := by
  have e1 : loadFileS rkInstall.disk rkInstall.today rkInstall.limit fkState0 fkFile = .ok (fkState rkTxns) := load_eq (by decide +kernel)
  have e2 : resolveP (formatEnv fkState0 fkAccts) rkTxns = .ok rkTxns' := ok_of_opt (by decide +kernel)
  obtain ⟨lines, e3⟩ : ∃ lines, writeTxns (fun a => (fkState0.comOf fkAccts a).decimals) (rkTxns'.map fun t => (modifyTxn m t).1) = .ok lines := by
    cases hx : writeTxns (fun a => (fkState0.comOf fkAccts a).decimals) (rkTxns'.map fun t => (modifyTxn m t).1) with
    | error e => rw [hx] at h; cases h
    | ok r => exact ⟨r, rfl⟩
  have e5 : modifyFile rkInstall m fkState0 fkAccts fkFile =
      .ok ({ rkInstall with disk := rkInstall.disk.put fkFile (textOf lines) }, { fkState rkTxns with items := (fkState rkTxns).items.filter fun i => (itemTxn i).isNone }, e) := by
    unfold modifyFile
    refine bind_ok.mpr ⟨_, e1, bind_ok.mpr ⟨rkTxns', ?_, bind_ok.mpr ⟨lines, e3, ?_⟩⟩⟩
    · rw [fkState_txns]; exact e2
    · rw [he]
  refine ⟨{ rkInstall with disk := rkInstall.disk.put fkFile (textOf lines) }, ?_⟩
  unfold modifyFiles
  rw [e5]
  refine bind_ok.mpr ⟨_, rfl, bind_ok.mpr ⟨({ rkInstall with disk := rkInstall.disk.put fkFile (textOf lines) }, []), rfl, ?_⟩⟩
  rw [List.append_nil]

theorem mc_runs : ∃ P', modifyMain cmdFlags (fun _ => none) rkInstall fkState0 fkAccts
    (str "modify" :: ([[str "-a", str "Food"], [str "--tt:=#moved"]].flatten ++ [fkFile])) = .ok (P', str "Updated 0 transactions in transactions.coin\n") := by
  rw [modifyMain_written (by decide) mc_written (.plain (.inr (by decide)))]
  obtain ⟨P', h⟩ := mc_file mcModify (str "Updated 0 transactions in transactions.coin\n") (by decide +kernel) (by decide +kernel)
  exact ⟨P', bind_ok.mpr ⟨mcModify, mc_flags, h⟩⟩

theorem C180_count_violated : ¬ C180_Statement := by
  classical
  intro hS
  obtain ⟨P', h⟩ := mc_runs
  have e1 : loadFileS rkInstall.disk rkInstall.today rkInstall.limit fkState0 fkFile = .ok (fkState rkTxns) := load_eq (by decide +kernel)
  have e2 : resolveP (formatEnv fkState0 fkAccts) (fkState rkTxns).txns = .ok rkTxns' := by
    rw [fkState_txns]; exact ok_of_opt (by decide +kernel)
  have := hS cmdFlags (fun _ => none) rkInstall P' fkState0 fkAccts (str "modify") mcFlags _ [fkFile] fkFile _ mcModify (fkState rkTxns) rkTxns' (by decide) mc_written
    (.plain (.inr (by decide))) h mc_flags e1 e2
  have hc : (rkTxns'.filter fun t => decide (ChangedBy mcModify t)).length = 1 := by
    have h1 : ChangedBy mcModify (fkShop (str "Assets:Cash") (some ⟨-350, progCad⟩)) := by unfold ChangedBy; decide
    have h2 : ¬ ChangedBy mcModify (rkPay (str "Assets:Cash")) := by unfold ChangedBy; decide
    unfold rkTxns'
    rw [List.filter_cons_of_pos (p := fun t : PTxn => decide (ChangedBy mcModify t)) (decide_eq_true h1), List.filter_cons_of_neg (p := fun t : PTxn => decide (ChangedBy mcModify t)) (fun k => h2 (of_decide_eq_true k))]
    rfl
  rw [hc] at this
  exact absurd this (by decide +kernel)

def mdFlags : List (Str × Str) := [(str "a", str "Food"), (str "a:", str "Unbalanced")]
def mdModify : Modify := ⟨some (str "Food"), some (str "Unbalanced"), none, none, none, [], []⟩

theorem md_flags : modifyOf (fun _ => none) (fkAccts.map (·.fullName)) mdFlags = .ok mdModify := by
  unfold modifyOf
  refine bind_ok.mpr ⟨some (str "Food"), ok_of_opt (by decide +kernel), bind_ok.mpr ⟨some (str "Unbalanced"), ok_of_opt (by decide +kernel), bind_ok.mpr ⟨none, ?_,
    bind_ok.mpr ⟨none, ?_, bind_ok.mpr ⟨none, ?_, bind_ok.mpr ⟨[], ok_of_opt (by decide +kernel), bind_ok.mpr ⟨[], ok_of_opt (by decide +kernel), rfl⟩⟩⟩⟩⟩⟩⟩
  · unfold optArg; rw [if_pos (by decide +kernel)]
  · unfold optArg; rw [if_pos (by decide +kernel)]
  · unfold optArg; rw [if_pos (by decide +kernel)]

theorem md_written : List.Forall₂ (Written cmdFlags (flagsOf .modify)) mdFlags [[str "-a", str "Food"], [str "-a:", str "Unbalanced"]] :=
  .cons (.next (d := ['-']) (name := str "a") (k := .text) (by unfold Dashes; decide) (by decide) (by decide) rfl)
    (.cons (.next (d := ['-']) (name := str "a:") (k := .text) (by unfold Dashes; decide) (by decide) (by decide) rfl) .nil)

/-- All hypotheses of `C180_count_partial` hold of `coin modify -a Food -a: Unbalanced transactions.coin` on that ledger, which reports the one
transaction it changes. -/
example : ∃ n, n = 1 ∧ ∃ P', modifyMain cmdFlags (fun _ => none) rkInstall fkState0 fkAccts
      (str "modify" :: ([[str "-a", str "Food"], [str "-a:", str "Unbalanced"]].flatten ++ [fkFile])) = .ok (P', updatedLine n fkFile) ∧
    updatedLine n fkFile = str "Updated " ++ natStr (@List.filter PTxn (fun t => @decide (ChangedBy mdModify t) (Classical.propDecidable _)) rkTxns').length ++
      str " transactions in " ++ fkFile ++ str "\n" := by
  classical
  obtain ⟨P', h⟩ := mc_file mdModify (updatedLine 1 fkFile) (by decide +kernel) (by decide +kernel)
  have hrun : modifyMain cmdFlags (fun _ => none) rkInstall fkState0 fkAccts
      (str "modify" :: ([[str "-a", str "Food"], [str "-a:", str "Unbalanced"]].flatten ++ [fkFile])) = .ok (P', updatedLine 1 fkFile) := by
    rw [modifyMain_written (by decide) md_written (.plain (.inr (by decide)))]
    exact bind_ok.mpr ⟨mdModify, md_flags, h⟩
  refine ⟨1, rfl, P', hrun, ?_⟩
  have e1 : loadFileS rkInstall.disk rkInstall.today rkInstall.limit fkState0 fkFile = .ok (fkState rkTxns) := load_eq (by decide +kernel)
  have e2 : resolveP (formatEnv fkState0 fkAccts) (fkState rkTxns).txns = .ok rkTxns' := by
    rw [fkState_txns]; exact ok_of_opt (by decide +kernel)
  exact C180_count_partial cmdFlags (fun _ => none) rkInstall P' fkState0 fkAccts (str "modify") mdFlags _ [fkFile] fkFile _ mdModify (fkState rkTxns) rkTxns' (by decide) md_written
    (.plain (.inr (by decide))) hrun md_flags e1 e2 (by decide +kernel) (.inr ⟨by decide +kernel, fun a h1 h2 => by
      have k1 : textFlag mdFlags (str "a") [] = str "Food" := by decide +kernel
      have k2 : textFlag mdFlags (str "a:") [] = str "Unbalanced" := by decide +kernel
      rw [k1] at h1
      rw [k2] at h2
      have e1 : a = str "Food" := Except.ok.inj (Eq.trans (Eq.symm h1) mk_means.1)
      have e2 : a = str "Unbalanced" := Except.ok.inj (Eq.trans (Eq.symm h2) mk_means.2.2.2)
      exact absurd (e1.symm.trans e2) (by decide)⟩)

end Verif
