import Verif.Lemmas.Page
import Verif.Props.Accounts
/-!
# Properties C116–C118: what the page loads is what the ledger holds
-/
namespace Verif

/-! ## C116 -/

/-- **C116** Every value coin2html writes is read back by the page's `JSON.parse` unchanged, whatever characters its texts
contain, and the written text contains no character that could end the script element or be altered by the browser: no `<`, `>`
or `&`, and no control characters but newline and tab. -/
theorem C116_json (v : JVal) : jsonParse (jsonEncode v) = some v ∧
    ∀ c ∈ jsonEncode v, c ≠ '<' ∧ c ≠ '>' ∧ c ≠ '&' ∧ (32 ≤ c.toNat ∨ c = '\n' ∨ c = '\t') :=
  ⟨jsonParse_encode v, jsonEncode_harmless v⟩

/-- The four texts of the page. -/
theorem C116_page (cs : List OutCom) (ps : List OutPrice) (as : List OutAcct) (ts : List OutTxn) (x : PageTexts)
    (h : pageTexts cs ps as ts = .ok x) : '<' ∉ x.coms ∧ '<' ∉ x.prices ∧ '<' ∉ x.accts ∧ '<' ∉ x.txns := by
  unfold pageTexts at h
  obtain ⟨p, _, h⟩ := bind_ok.mp h
  obtain ⟨t, _, h⟩ := bind_ok.mp h
  injection h with h
  subst h
  exact ⟨fun hc => (jsonEncode_harmless _ _ hc).1 rfl, fun hc => (jsonEncode_harmless _ _ hc).1 rfl,
    fun hc => (jsonEncode_harmless _ _ hc).1 rfl, fun hc => (jsonEncode_harmless _ _ hc).1 rfl⟩

/-- Non-vacuity: a description trying to leave the script element. -/
example : jsonEncode (.arr [.str (str "</script>\"\\\n")]) = str "[\n\t\"\\u003c/script\\u003e\\\"\\\\\\n\"\n]\n" ∧
    jsonParse (jsonEncode (.obj [(str "a", .arr [.str (str "</script>\"\\\n"), .num 30, .null, .bool true])])) =
      some (.obj [(str "a", .arr [.str (str "</script>\"\\\n"), .num 30, .null, .bool true])]) :=
  ⟨by decide +kernel, jsonParse_encode _⟩

/-! ## C117 -/

/-- What the page makes of an account. -/
def wacctOf (a : OutAcct) (c : Com) : WAcct :=
  ⟨a.name, a.fullName, c, a.parent.bind (fun p => if p = rootName then none else some p), a.closed.map (86400 * ·)⟩

theorem findAcct_some (as : List WAcct) (n : Str) (h : n ∈ as.map (·.fullName)) : (findAcct as n).map (·.fullName) = some n := by
  unfold findAcct
  cases hf : as.find? (fun a => decide (a.fullName = n)) with
  | some w => have := List.find?_some hf; simp only [decide_eq_true_eq] at this; simp [this]
  | none =>
    obtain ⟨w, hw, e⟩ := List.mem_map.mp h
    have := List.find?_eq_none.mp hf w hw
    exact absurd e (by simpa using this)

theorem findAcct_none (as : List WAcct) (n : Str) (h : n ∉ as.map (·.fullName)) : findAcct as n = none := by
  unfold findAcct
  rw [List.find?_eq_none]
  intro w hw
  simp only [decide_eq_true_eq]
  intro e
  exact h (List.mem_map.mpr ⟨w, hw, e⟩)


/-- What a list of accounts must satisfy to be loaded faithfully. -/
structure PageAccts (cs : List Com) (as : List OutAcct) : Prop where
  nodup : (as.map (·.fullName)).Nodup
  only : ∀ a ∈ as, a.name = rootName ↔ a.fullName = rootName
  parent : ∀ a ∈ as, ∀ p, a.parent = some p → p = rootName ∨ (strLt p a.fullName = true ∧ p ∈ as.map (·.fullName))
  com : ∀ a ∈ as, ∃ c, findCom cs a.commodityId = some c
  closed : ∀ a ∈ as, ∀ d, a.closed = some d → 100 ≤ goYear d ∧ goYear d ≤ 9999

/-- The accounts of the page, in the order written. -/
def pageAccts (cs : List Com) (l : List OutAcct) : List WAcct :=
  l.filterMap (fun a => if a.fullName = rootName then none else (findCom cs a.commodityId).map (wacctOf a))

theorem mem_pageAccts (cs : List Com) (l : List OutAcct) (w : WAcct) :
    w ∈ pageAccts cs l ↔ ∃ a ∈ l, a.fullName ≠ rootName ∧ ∃ c, findCom cs a.commodityId = some c ∧ w = wacctOf a c := by
  unfold pageAccts
  rw [List.mem_filterMap]
  constructor
  · rintro ⟨a, ha, h⟩
    by_cases hr : a.fullName = rootName
    · rw [if_pos hr] at h; cases h
    · rw [if_neg hr] at h
      obtain ⟨c, hc, e⟩ := Option.map_eq_some_iff.mp h
      exact ⟨a, ha, hr, c, hc, e.symm⟩
  · rintro ⟨a, ha, hr, c, hc, rfl⟩
    exact ⟨a, ha, by rw [if_neg hr, hc]; rfl⟩

theorem pageAccts_append (cs : List Com) (l l' : List OutAcct) : pageAccts cs (l ++ l') = pageAccts cs l ++ pageAccts cs l' :=
  List.filterMap_append

theorem load_loop (cs : List Com) : ∀ (rest pre : List OutAcct), PageAccts cs (pre ++ rest) →
    (pre ++ rest).Pairwise (fun a b => strLt a.fullName b.fullName = true) →
    foldE (pageAcct cs) (pageAccts cs pre) (rest.map accountJson) = .ok (pageAccts cs (pre ++ rest)) := by
  intro rest
  induction rest with
  | nil => intro pre _ _; rw [List.append_nil]; rfl
  | cons a rest ih =>
    intro pre hp hs
    have ha : a ∈ pre ++ a :: rest := by simp
    have e : pre ++ a :: rest = (pre ++ [a]) ++ rest := by simp
    have step : pageAcct cs (pageAccts cs pre) (accountJson a) = .ok (pageAccts cs (pre ++ [a])) := by
      obtain ⟨g1, g2, g3, g4, g5⟩ := accountJson_get a
      unfold pageAcct needStr
      rw [g1]
      show (if a.name = rootName then _ else _) = _
      rw [pageAccts_append]
      by_cases hr : a.fullName = rootName
      · rw [if_pos ((hp.only a ha).mpr hr)]
        simp [pageAccts, hr]
      · rw [if_neg (fun h => hr ((hp.only a ha).mp h)), g2, g3, g4, g5]
        obtain ⟨c, hc⟩ := hp.com a ha
        show (needCom cs a.commodityId).bind _ = _
        have hn : needCom cs a.commodityId = .ok c := by unfold needCom; rw [hc]
        rw [hn]
        have hpar : (a.parent.bind (findAcct (pageAccts cs pre))).map (·.fullName) = a.parent.bind (fun p => if p = rootName then none else some p) := by
          cases hpa : a.parent with
          | none => rfl
          | some p =>
            show (findAcct (pageAccts cs pre) p).map (·.fullName) = if p = rootName then none else some p
            by_cases hpr : p = rootName
            · rw [if_pos hpr, findAcct_none]; rfl
              intro hm
              obtain ⟨w, hw, hwe⟩ := List.mem_map.mp hm
              obtain ⟨b, _, hbr, _, _, rfl⟩ := (mem_pageAccts cs pre w).mp hw
              exact hbr (hwe.trans hpr)
            · rw [if_neg hpr, findAcct_some]
              rcases hp.parent a ha p hpa with h | ⟨hlt, hm⟩
              · exact absurd h hpr
              obtain ⟨b, hb, hbe⟩ := List.mem_map.mp hm
              have hbpre : b ∈ pre := by
                rcases List.mem_append.mp hb with h | h
                · exact h
                exfalso
                rcases List.mem_cons.mp h with rfl | h
                · rw [hbe, strLt_irrefl] at hlt; cases hlt
                · have h2 := (List.pairwise_cons.mp (List.pairwise_append.mp hs).2.1).1 b h
                  rw [hbe] at h2
                  have := strLt_asymm _ _ hlt
                  rw [h2] at this; cases this
              obtain ⟨c', hc'⟩ := hp.com b hb
              exact List.mem_map.mpr ⟨wacctOf b c', (mem_pageAccts cs pre _).mpr ⟨b, hbpre, by rw [hbe]; exact hpr, c', hc', rfl⟩, hbe⟩
        have hcl : (a.closed.map formatDate).bind jsDate = a.closed.map (86400 * ·) := by
          cases hcd : a.closed with
          | none => rfl
          | some d =>
            obtain ⟨d1, d2⟩ := hp.closed a ha d hcd
            exact jsDate_format d d1 d2
        show Except.ok (pageAccts cs pre ++ [WAcct.mk a.name a.fullName c ((a.parent.bind (findAcct (pageAccts cs pre))).map (·.fullName)) ((a.closed.map formatDate).bind jsDate)]) = _
        rw [hpar, hcl]
        have : pageAccts cs [a] = [wacctOf a c] := by simp [pageAccts, hr, hc]
        rw [this]; rfl
    rw [List.map_cons, foldE_cons, step]
    show foldE (pageAcct cs) (pageAccts cs (pre ++ [a])) (rest.map accountJson) = _
    rw [e]
    exact ih (pre ++ [a]) (e ▸ hp) (e ▸ hs)

/-- The accounts sorted by full name. -/
theorem sorted_strict (as : List OutAcct) (h : (as.map (·.fullName)).Nodup) :
    (stableSort (fun a b : OutAcct => strLt a.fullName b.fullName) as).Pairwise (fun a b => strLt a.fullName b.fullName = true) := by
  have h1 := stableSort_sorted (fun a b : OutAcct => strLt a.fullName b.fullName) (strLt_strictWeak.comap (fun a : OutAcct => a.fullName)) as
  have h2 : ((stableSort (fun a b : OutAcct => strLt a.fullName b.fullName) as).map (·.fullName)).Nodup :=
    (((stableSort_perm (fun a b : OutAcct => strLt a.fullName b.fullName) as).map (·.fullName)).nodup_iff).mpr h
  have h3 : (stableSort (fun a b : OutAcct => strLt a.fullName b.fullName) as).Pairwise (fun a b => a.fullName ≠ b.fullName) := by
    rw [List.nodup_iff_pairwise_ne, List.pairwise_map] at h2
    exact h2
  refine (h1.and h3).imp ?_
  intro a b hab
  cases hlt : strLt a.fullName b.fullName with
  | true => rfl
  | false => exact absurd (strLt_total _ _ hlt hab.1) hab.2

theorem loadAccounts_ok (cs : List Com) (as : List OutAcct) (h : PageAccts cs as) :
    loadAccounts cs (accountsJson as) = .ok (pageAccts cs (stableSort (fun a b : OutAcct => strLt a.fullName b.fullName) as)) := by
  have hp := stableSort_perm (fun a b : OutAcct => strLt a.fullName b.fullName) as
  have hs := sorted_strict as h.nodup
  generalize hl : stableSort (fun a b : OutAcct => strLt a.fullName b.fullName) as = l at hp hs
  have h' : PageAccts cs l := by
    refine ⟨((hp.map (·.fullName)).nodup_iff).mpr h.nodup, fun a ha => h.only a (hp.mem_iff.mp ha), ?_, fun a ha => h.com a (hp.mem_iff.mp ha),
      fun a ha => h.closed a (hp.mem_iff.mp ha)⟩
    intro a ha p hpa
    rcases h.parent a (hp.mem_iff.mp ha) p hpa with h1 | ⟨h1, h2⟩
    · exact Or.inl h1
    · exact Or.inr ⟨h1, ((hp.map (·.fullName)).mem_iff).mpr h2⟩
  have := load_loop cs l [] h' hs
  unfold loadAccounts accountsJson objectValues
  rw [hl]
  show foldE (pageAcct cs) [] ((l.map fun a => (a.fullName, accountJson a)).map (·.2)) = _
  rw [List.map_map]
  exact this

/-- Accounts of a loaded ledger can be loaded by the page when no other account is called Root. -/
theorem resolved_pageAccts (code location : Str → Str) (cs : List Com) (dflt : Str) (decls accts : List Acct) (L : Links)
    (h : ResolvedAccounts dflt decls accts L)
    (hroot : ∀ a ∈ accts, a.fullName ≠ rootName → (parentAndName a.fullName).2 ≠ rootName)
    (hcom : ∀ a ∈ accts, ∃ c, findCom cs a.commodityId = some c)
    (hclosed : ∀ a ∈ accts, ∀ d, a.closed = some d → 100 ≤ goYear d ∧ goYear d ≤ 9999) :
    PageAccts cs (outAccts code location accts L) := by
  obtain ⟨hn, hpar, _, hcl, _⟩ := resolved_spec dflt decls accts L h
  have hnames : (outAccts code location accts L).map (·.fullName) = accts.map (·.fullName) := by
    unfold outAccts; rw [List.map_map]; rfl
  have hex : ∀ a ∈ outAccts code location accts L, ∃ b ∈ accts, a.fullName = b.fullName ∧ a.name = (parentAndName b.fullName).2 ∧
      a.commodityId = b.commodityId ∧ a.closed = b.closed ∧ a.parent = L.parent b.fullName := by
    intro a ha
    unfold outAccts at ha
    obtain ⟨b, hb, rfl⟩ := List.mem_map.mp ha
    exact ⟨b, hb, rfl, rfl, rfl, rfl, rfl⟩
  refine ⟨by rw [hnames]; exact hn, ?_, ?_, ?_, ?_⟩
  · intro a ha
    obtain ⟨b, hb, e1, e2, _⟩ := hex a ha
    rw [e1, e2]
    constructor
    · intro h'
      by_contra hne
      exact hroot b hb hne h'
    · intro h'
      rw [h', parentAndName_none _ (by decide)]
  · intro a ha p hp
    obtain ⟨b, hb, e1, _, _, _, e5⟩ := hex a ha
    rw [e5, hpar] at hp
    have hbm : b.fullName ∈ accts.map (·.fullName) := List.mem_map.mpr ⟨b, hb, rfl⟩
    by_cases hbr : b.fullName = rootName
    · rw [if_neg (fun h => h.2 hbr)] at hp; cases hp
    rw [if_pos ⟨hbm, hbr⟩] at hp
    injection hp with hp
    subst hp
    by_cases hpr : parentOf b.fullName = rootName
    · exact Or.inl hpr
    refine Or.inr ⟨?_, by rw [hnames]; exact hcl _ hbm⟩
    rw [e1]
    rcases parent_cases b.fullName with h' | ⟨q, x, hq, hx, e, e'⟩
    · exact absurd (by unfold parentOf; rw [if_pos h']) hpr
    · have : parentOf b.fullName = q := by unfold parentOf; rw [e', if_neg hq]
      rw [this, e]
      exact strLt_of_prefix q _ (by simp)
  · intro a ha
    obtain ⟨b, hb, _, _, e3, _⟩ := hex a ha
    rw [e3]; exact hcom b hb
  · intro a ha d hd
    obtain ⟨b, hb, _, _, _, e4, _⟩ := hex a ha
    exact hclosed b hb d (e4 ▸ hd)

/-- `n` is the last part of the full name `a`. -/
def IsLastPart (a n : Str) : Prop := ':' ∉ n ∧ (a = n ∨ ∃ pre, a = pre ++ ':' :: n)

/-- The page's accounts are the ledger's: what C117 asks of the loaded accounts. -/
def SameAccounts (cs : List Com) (accts : List Acct) (was : List WAcct) : Prop :=
  was.Pairwise (fun a b => strLt a.fullName b.fullName = true) ∧
  (∀ a ∈ accts, a.fullName ≠ str "Root" → ∃ w ∈ was, w.fullName = a.fullName) ∧
  (∀ w ∈ was, w.fullName ≠ str "Root" ∧ ∃ a ∈ accts, w.fullName = a.fullName ∧ IsLastPart a.fullName w.name ∧
    findCom cs a.commodityId = some w.com ∧ w.closed = a.closed.map (86400 * ·) ∧
    ∃ p, IsParentName a.fullName p ∧ w.parent = if p = str "Root" then none else some p)

/-- The full statement of C117: the page has exactly the ledger's accounts. -/
def C117_Statement : Prop := ∀ (code location : Str → Str) (cs : List Com) (dflt : Str) (decls accts : List Acct) (L : Links),
  ResolvedAccounts dflt decls accts L → (∀ a ∈ accts, ∃ c, findCom cs a.commodityId = some c) →
  (∀ a ∈ accts, ∀ d, a.closed = some d → 100 ≤ goYear d ∧ goYear d ≤ 9999) →
  ∃ was, (parseE (jsonEncode (accountsJson (outAccts code location accts L)))).bind (loadAccounts cs) = .ok was ∧ SameAccounts cs accts was

theorem parseE_encode (v : JVal) : parseE (jsonEncode v) = .ok v := by unfold parseE; rw [jsonParse_encode]

theorem lastPart (a : Str) : IsLastPart a (parentAndName a).2 := by
  by_cases h : ':' ∈ a
  · obtain ⟨p, x, rfl, hx⟩ := exists_lastSplit ':' a h
    rw [parentAndName_some p x hx]
    exact ⟨hx, Or.inr ⟨p, rfl⟩⟩
  · rw [parentAndName_none a h]
    exact ⟨h, Or.inl rfl⟩

/-- **C117** when no account but the root is called `Root`: the page has exactly the accounts of the ledger other than Root, in
order of their full names, each with its name, commodity, closing day and parent (none at the top level). -/
theorem C117_accounts_partial (code location : Str → Str) (cs : List Com) (dflt : Str) (decls accts : List Acct) (L : Links)
    (h : ResolvedAccounts dflt decls accts L)
    (hroot : ∀ a ∈ accts, a.fullName ≠ str "Root" → ¬ IsLastPart a.fullName (str "Root"))
    (hcom : ∀ a ∈ accts, ∃ c, findCom cs a.commodityId = some c)
    (hclosed : ∀ a ∈ accts, ∀ d, a.closed = some d → 100 ≤ goYear d ∧ goYear d ≤ 9999) :
    ∃ was, (parseE (jsonEncode (accountsJson (outAccts code location accts L)))).bind (loadAccounts cs) = .ok was ∧ SameAccounts cs accts was := by
  have hp := resolved_pageAccts code location cs dflt decls accts L h
    (fun a ha hr e => hroot a ha hr (by have := lastPart a.fullName; rw [e] at this; exact this)) hcom hclosed
  obtain ⟨_, hpar, _, hcl, _⟩ := resolved_spec dflt decls accts L h
  refine ⟨_, by rw [parseE_encode]; exact loadAccounts_ok cs _ hp, ?_, ?_, ?_⟩
  · have := sorted_strict _ hp.nodup
    unfold pageAccts
    rw [List.pairwise_filterMap]
    refine this.imp ?_
    intro a b hab w hw w' hw'
    have key : ∀ (a : OutAcct) (w : WAcct), (if a.fullName = rootName then none else (findCom cs a.commodityId).map (wacctOf a)) = some w → w.fullName = a.fullName := by
      intro a w h
      split at h
      · cases h
      · obtain ⟨c, _, e⟩ := Option.map_eq_some_iff.mp h
        rw [← e]; rfl
    rw [key a w hw, key b w' hw']; exact hab
  · intro a ha hr
    obtain ⟨c, hc⟩ := hcom a ha
    refine ⟨wacctOf _ c, (mem_pageAccts cs _ _).mpr ⟨⟨(parentAndName a.fullName).2, a.fullName, a.commodityId, location a.fullName, a.closed, code a.fullName,
      L.parent a.fullName⟩, ?_, hr, c, hc, rfl⟩, rfl⟩
    rw [(stableSort_perm _ _).mem_iff]
    exact List.mem_map.mpr ⟨a, ha, rfl⟩
  · intro w hw
    obtain ⟨o, ho, hr, c, hc, rfl⟩ := (mem_pageAccts cs _ _).mp hw
    rw [(stableSort_perm _ _).mem_iff] at ho
    obtain ⟨a, ha, rfl⟩ := List.mem_map.mp ho
    have ham : a.fullName ∈ accts.map (·.fullName) := List.mem_map.mpr ⟨a, ha, rfl⟩
    refine ⟨hr, a, ha, rfl, lastPart _, hc, rfl, parentOf a.fullName, isParentName_parentOf _, ?_⟩
    show (L.parent a.fullName).bind _ = _
    rw [hpar, if_pos ⟨ham, hr⟩]
    rfl


/-- The accounts resolved when the map is visited in the order of declaration. -/
theorem resolved_concrete (dflt : Str) (decls : List Acct) :
    ∃ L, ResolvedAccounts dflt decls (createParents dflt (baseAccounts dflt decls) (baseAccounts dflt decls)) L := by
  obtain ⟨L0, h0⟩ := C20_linking_succeeds dflt decls (baseAccounts dflt decls) _ 0 (List.Perm.refl _) (List.Perm.refl _)
  refine ⟨⟨L0.parent, fun p => stableSort (fun a b => strLt (parentAndName a).2 (parentAndName b).2) (L0.children p)⟩,
    _, _, 0, L0, List.Perm.refl _, rfl, List.Perm.refl _, h0, rfl, ?_⟩
  intro p
  exact ⟨stableSort_perm _ _, stableSort_sorted _ (strLt_strictWeak.comap _) _⟩

/-- No account of the page is called Root. -/
theorem page_no_root (cs : List Com) : ∀ (l : List JVal) (acc was : List WAcct), (∀ w ∈ acc, w.name ≠ str "Root") →
    foldE (pageAcct cs) acc l = .ok was → ∀ w ∈ was, w.name ≠ str "Root" := by
  intro l
  induction l with
  | nil => intro acc was h e; injection e with e; subst e; exact h
  | cons v l ih =>
    intro acc was h e
    rw [foldE_cons] at e
    obtain ⟨acc', h1, h2⟩ := bind_ok.mp e
    refine ih acc' was ?_ h2
    unfold pageAcct at h1
    obtain ⟨name, _, h1⟩ := bind_ok.mp h1
    by_cases hn : name = str "Root"
    · rw [if_pos hn] at h1; injection h1 with h1; subst h1; exact h
    · rw [if_neg hn] at h1
      obtain ⟨fn, _, h1⟩ := bind_ok.mp h1
      obtain ⟨id, _, h1⟩ := bind_ok.mp h1
      obtain ⟨c, _, h1⟩ := bind_ok.mp h1
      injection h1 with h1
      subst h1
      intro w hw
      rcases List.mem_append.mp hw with hw | hw
      · exact h w hw
      · rw [List.mem_singleton] at hw; subst hw; exact hn

/-- An account called Root below another one. -/
def nestedRoot : List Acct := [⟨str "Assets:Root", [], str "CAD", none⟩]

/-- **C117 is false** of the code: an account such as `Assets:Root` is missing from the page. -/
theorem C117_root_violated : ¬ C117_Statement := by
  intro h
  obtain ⟨L, hr⟩ := resolved_concrete (str "CAD") nestedRoot
  have hall : ∀ a ∈ createParents (str "CAD") (baseAccounts (str "CAD") nestedRoot) (baseAccounts (str "CAD") nestedRoot), a.commodityId = str "CAD" ∧ a.closed = none := by
    decide +kernel
  obtain ⟨was, hw, _, h2, h3⟩ := h (fun _ => []) (fun _ => []) [⟨0, str "CAD", 2⟩] (str "CAD") nestedRoot _ L hr
    (fun a ha => ⟨⟨0, str "CAD", 2⟩, by rw [(hall a ha).1]; rfl⟩) (fun a ha d hd => by rw [(hall a ha).2] at hd; cases hd)
  obtain ⟨w, hwm, hwe⟩ := h2 ⟨str "Assets:Root", [], str "CAD", none⟩ (by decide +kernel) (by decide)
  obtain ⟨_, a, _, e, ⟨hn1, hn2⟩, _⟩ := h3 w hwm
  have hname : w.name = str "Root" := by
    rw [← e, hwe] at hn2
    rcases hn2 with hn2 | ⟨pre, hn2⟩
    · rw [← hn2] at hn1; exact absurd hn1 (by decide)
    · have h1 := parentAndName_some pre w.name hn1
      rw [← hn2] at h1
      have h4 : parentAndName (str "Assets:Root") = (str "Assets", str "Root") := by decide
      rw [h4] at h1
      injection h1 with _ h1
      exact h1.symm
  obtain ⟨v, _, hw⟩ := bind_ok.mp hw
  unfold loadAccounts at hw
  obtain ⟨l, _, hw⟩ := bind_ok.mp hw
  exact page_no_root _ l [] was (by simp) hw w hwm hname

/-- Non-vacuity of the partial theorem: a small account tree. -/
example : ∃ L, ResolvedAccounts (str "CAD") [⟨str "Assets:Bank", [], str "CAD", some 737060⟩]
      (createParents (str "CAD") (baseAccounts (str "CAD") [⟨str "Assets:Bank", [], str "CAD", some 737060⟩])
        (baseAccounts (str "CAD") [⟨str "Assets:Bank", [], str "CAD", some 737060⟩])) L ∧
    (createParents (str "CAD") (baseAccounts (str "CAD") [⟨str "Assets:Bank", [], str "CAD", some 737060⟩])
        (baseAccounts (str "CAD") [⟨str "Assets:Bank", [], str "CAD", some 737060⟩])).map (·.fullName) =
      [str "Assets:Bank", str "Root", str "Unbalanced", str "Assets"] ∧ 100 ≤ goYear 737060 ∧ goYear 737060 ≤ 9999 := by
  obtain ⟨L, h⟩ := resolved_concrete (str "CAD") [⟨str "Assets:Bank", [], str "CAD", some 737060⟩]
  exact ⟨L, h, by decide +kernel, by decide +kernel, by decide +kernel⟩

end Verif
