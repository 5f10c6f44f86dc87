import Verif.Props.Reproduce
import Verif.Props.Scanner
import Verif.Model.FormatMain
/-
C176: formatting a file in place and the reports.
-/
namespace Verif

/-! ## The balance report depends on the own totals only -/

theorem balWidth_congr {comOf comOf' : Str → Com} {m m' : AmtMap} (l : List Str) (h : ∀ a ∈ l, m a = m' a ∧ comOf a = comOf' a) :
    balWidth comOf m l = balWidth comOf' m' l := by
  induction l with
  | nil => rfl
  | cons a l ih =>
    rw [balWidth, balWidth, (h a (by simp)).1, (h a (by simp)).2, ih (fun b hb => h b (by simp [hb]))]

theorem curWidth_congr {m m' : AmtMap} (l : List Str) (h : ∀ a ∈ l, m a = m' a) : curWidth m l = curWidth m' l := by
  induction l with
  | nil => rfl
  | cons a l ih => rw [curWidth, curWidth, h a (by simp), ih (fun b hb => h b (by simp [hb]))]

theorem balanceRows_congr {parent : Str → Option Str} {fuel : Nat} {level : Int} {zero : Bool} {t t' k k' : AmtMap} (l : List Str) (h : ∀ a ∈ l, t a = t' a ∧ k a = k' a) :
    balanceRows parent fuel level zero t k l = balanceRows parent fuel level zero t' k' l := by
  induction l with
  | nil => rfl
  | cons a l ih =>
    rw [balanceRows, balanceRows, (h a (by simp)).1, (h a (by simp)).2, ih (fun b hb => h b (by simp [hb]))]

theorem balanceRows_from {parent : Str → Option Str} {fuel : Nat} {level : Int} {zero : Bool} {t k : AmtMap} (l : List Str) {rows : List (Str × Option Amount × Option Amount)}
    (h : balanceRows parent fuel level zero t k l = .ok rows) : ∀ x ∈ rows, x.1 ∈ l := by
  induction l generalizing rows with
  | nil => cases h; simp
  | cons a l ih =>
    rw [balanceRows] at h
    obtain ⟨skip, _, h⟩ := bind_ok.mp h
    obtain ⟨rs, h1, h⟩ := bind_ok.mp h
    injection h with h
    subst h
    intro x hx
    split at hx
    · exact List.mem_cons_of_mem _ (ih h1 x hx)
    · split at hx
      · rcases List.mem_cons.mp hx with rfl | hx
        · exact List.mem_cons_self
        · exact List.mem_cons_of_mem _ (ih h1 x hx)
      · exact List.mem_cons_of_mem _ (ih h1 x hx)

theorem linesOf_congr {α : Type} {f g : α → Except Fault Str} (l : List α) (h : ∀ x ∈ l, f x = g x) : linesOf f l = linesOf g l := by
  induction l with
  | nil => rfl
  | cons a l ih => rw [linesOf, linesOf, h a (by simp), ih (fun b hb => h b (by simp [hb]))]

/-- The text of the report as a function of the own totals. -/
noncomputable def balanceReportText (names : List Str) (L : Links) (c : Com) (level : Int) (zero : Bool) (own : Str → Int) (r : Str) : Except Fault (List Str) :=
  let tot : AmtMap := fun a => some ⟨own a, c⟩
  let cum : AmtMap := fun a => some ⟨((familyOf names a).map own).sum, c⟩
  let walk := walkOf names L r
  (balWidth (fun _ => c) tot walk).bind fun w => (balWidth (fun _ => c) cum walk).bind fun cw =>
  (balanceRows L.parent (treeFuel names) level zero tot cum walk).bind fun rows => linesOf (balanceLine (fun _ => c) w cw (curWidth cum walk)) rows

theorem balanceOut_text {dflt : Str} {decls accts : List Acct} {L : Links} (h : ResolvedAccounts dflt decls accts L) (env : Env) (compile : Compile)
    (v : View) (f : Filters) (hv : ValidFilters compile f) (level : Int) (fuel : Nat) (zero : Bool) (r : Str) (c : Com)
    (hr : r ∈ accts.map (·.fullName)) (hc : OneCommodity env v (accts.map (·.fullName)) r c) (hf : treeFuel (accts.map (·.fullName)) ≤ fuel) :
    balanceOut env compile v L fuel f level zero r = balanceReportText (accts.map (·.fullName)) L c level zero (ownSum compile v f) r := by
  classical
  have t := TreeOK.of h
  set names := accts.map (·.fullName)
  have hmem := t.mem_walk r hr
  obtain ⟨totals, h1, h2, h3⟩ := ownTotals_spec env compile v f hv (walkOf names L r) (t.walk_nodup r hr) (fun _ => none)
    (fun a ha => hc.sorted a ((hmem a).mp ha).1)
    (fun a ha p hp => by rw [hc.qty a ((hmem a).mp ha).1 ((hmem a).mp ha).2 p hp, hc.com a ((hmem a).mp ha).1 ((hmem a).mp ha).2])
  have hcom : ∀ a ∈ walkOf names L r, env.comOf a = c := fun a ha => hc.com a ((hmem a).mp ha).1 ((hmem a).mp ha).2
  have h2' : ∀ a ∈ walkOf names L r, totals a = some ⟨ownSum compile v f a, c⟩ := by
    intro a ha; rw [h2 a ha, hcom a ha]
  have hparent : ∀ p, L.parent r = some p → totals p = none := by
    intro p hp
    rw [h3]
    rw [t.parent] at hp
    split at hp
    · rename_i hh
      injection hp with hp
      subst hp
      intro hm
      have hac := ancName_parentOf r hh.2
      rcases ((hmem _).mp hm).2 with e | e
      · rw [e] at hac; exact ancName_irrefl _ hac
      · exact ancName_irrefl _ (ancName_trans _ _ _ hac e)
    · simp at hp
  obtain ⟨cum, g1, g2, _, _⟩ := t.addUp_walk env c (ownSum compile v f) r hr totals [] h2' (by
    intro p hp q hq; rw [hparent p hp] at hq; simp at hq)
  have g2' : ∀ a ∈ walkOf names L r, cum a = some ⟨((familyOf names a).map (ownSum compile v f)).sum, c⟩ := by
    intro a ha
    rw [g2 a ha]
    unfold sumOver familyOf
    rw [perm_sum_int ((t.walk_perm a ((hmem a).mp ha).1).map _)]
  rw [List.append_nil] at g1
  unfold balanceOut balanceReportText
  simp only [t.walk_fuel fuel hf r hr, t.walkPost_fuel fuel hf r hr]
  rw [h1]
  show Except.bind (addUp env L.parent totals _) _ = _
  rw [g1]
  show Except.bind (balWidth env.comOf totals _) _ = _
  rw [balWidth_congr (comOf' := fun _ => c) (m' := fun a => some ⟨ownSum compile v f a, c⟩) _ (fun a ha => ⟨h2' a ha, hcom a ha⟩)]
  congr 1
  funext w
  rw [balWidth_congr (comOf' := fun _ => c) (m' := fun a => some ⟨((familyOf names a).map (ownSum compile v f)).sum, c⟩) _ (fun a ha => ⟨g2' a ha, hcom a ha⟩)]
  congr 1
  funext cw
  rw [balanceRows_fuel t fuel (treeFuel names) level zero totals cum _ (fun a ha => ((hmem a).mp ha).1) hf (Nat.le_refl _),
    balanceRows_congr (t' := fun a => some ⟨ownSum compile v f a, c⟩) (k' := fun a => some ⟨((familyOf names a).map (ownSum compile v f)).sum, c⟩) _
      (fun a ha => ⟨h2' a ha, g2' a ha⟩),
    curWidth_congr (m' := fun a => some ⟨((familyOf names a).map (ownSum compile v f)).sum, c⟩) _ g2']
  cases hrows : balanceRows L.parent (treeFuel names) level zero (fun a => some ⟨ownSum compile v f a, c⟩)
      (fun a => some ⟨((familyOf names a).map (ownSum compile v f)).sum, c⟩) (walkOf names L r) with
  | error e => rfl
  | ok rows =>
    show linesOf _ rows = linesOf _ rows
    refine linesOf_congr rows ?_
    intro x hx
    have := hcom _ (balanceRows_from _ hrows x hx)
    unfold balanceLine
    rw [this]

theorem ownUnits_perm {names names' : List Str} (h : names.Perm names') (compile : Compile) (f : Filters) (ts : List PTxn) (a : Str) :
    ownUnits names' compile f ts a = ownUnits names compile f ts a := by
  classical
  unfold ownUnits booked
  simp only [mustFind_perm h]

/-- The balance command prints the same for two ledgers of one commodity with the same accounts and the same own totals. -/
theorem balance_same {P P' : Install} {compile : Compile} {st st' : LoadState} {accts accts' : List Acct} {g g' : LedgerView}
    (hO : Opened P compile st accts g) (hO' : Opened P' compile st' accts' g') (hp : PlainNames (accts.map (·.fullName))) (hdflt : st'.dflt = st.dflt) (hdecls : st'.decls = st.decls)
    {c : Com} (hc : OneCom st accts c) (hc' : OneCom st' accts' c) (f : Filters) (hv : ValidFilters compile f)
    (hu : ∀ a, ownUnits (accts.map (·.fullName)) compile f st'.txns a = ownUnits (accts.map (·.fullName)) compile f st.txns a) (level : Int) (zero : Bool) {r : Str}
    (hr : r ∈ accts.map (·.fullName)) :
    balanceOut g'.env g'.compile g'.view g'.links g'.fuel f level zero r = balanceOut g.env g.compile g.view g.links g.fuel f level zero r := by
  obtain ⟨e1, _, _, _, _, hA, hf, _, hone, hown⟩ := opened_balance hO hc f
  obtain ⟨e1', _, _, _, _, hA', _, hfl', hone', hown'⟩ := opened_balance hO' hc' f
  rw [hdflt, hdecls] at hA'
  have hperm := resolved_names_perm hA hA'
  have hL := resolved_links hA hA' hp
  have hroot := (resolved_spec _ _ _ _ hA).2.2.2.2
  have hone2 : OneCommodity g'.env g'.view (accts.map (·.fullName)) r c :=
    ⟨fun a ha => (hone' r).sorted a (hperm.mem_iff.mp ha), fun a ha => (hone' r).com a (hperm.mem_iff.mp ha), fun a ha => (hone' r).qty a (hperm.mem_iff.mp ha)⟩
  rw [e1, e1', ← hL, balanceOut_text hA _ _ _ f hv level _ zero r c hr (hone r) hf,
    balanceOut_text hA _ _ _ f hv level _ zero r c hr hone2 (treeFuel_le ⟨_, hroot⟩ (fun a ha => hfl' a (hperm.mem_iff.mp ha)))]
  congr 1
  funext a
  unfold ownSum
  rw [hown, hown', ownUnits_perm hperm, hu]

/-! ## What formatting does to the own totals -/

theorem mustFind_again {names : List Str} (hn : names.Nodup) {n a : Str} (h : mustFindAccount names (patternMatches n) n = .ok a) (m : Str → Bool) :
    mustFindAccount names m a = .ok a := by
  unfold mustFindAccount
  rw [if_pos (mustFind_mem hn h)]

theorem totalP_one {conv : Com → Amount → Except Fault Amount} {c : Com} (ps : List PPost) (hq : ∀ p ∈ ps, ∀ q, p.quantity = some q → q.com = c)
    (x : Int) (m : Bool) {r : Amount × Bool} (h : totalP conv ⟨x, c⟩ m ps = .ok r) :
    r.1 = ⟨x + ((ps.filterMap (·.quantity)).map (·.int)).sum, c⟩ ∧ (r.2 = false → ∀ p ∈ ps, p.quantity ≠ none) := by
  induction ps generalizing x m with
  | nil => cases h; simp
  | cons p ps ih =>
    rw [totalP] at h
    cases hp : p.quantity with
    | none =>
      rw [hp] at h
      simp only [] at h
      split at h
      · cases h
      · obtain ⟨h1, h2⟩ := ih (fun q hq' => hq q (by simp [hq'])) x true h
        have hr : r.2 = true := by
          have : ∀ (ps : List PPost) (t : Amount) {r : Amount × Bool}, totalP conv t true ps = .ok r → r.2 = true := by
            intro ps
            induction ps with
            | nil => intro t r h; cases h; rfl
            | cons p ps ih =>
              intro t r h
              rw [totalP] at h
              split at h
              · cases h
              · obtain ⟨t', _, h⟩ := bind_ok.mp h
                exact ih t' h
          exact this _ _ h
        refine ⟨by rw [h1, List.filterMap_cons_none hp], ?_⟩
        intro h'; rw [hr] at h'; cases h'
    | some q =>
      rw [hp] at h
      simp only [] at h
      obtain ⟨t', h1, h⟩ := bind_ok.mp h
      rw [addIn_same conv ⟨x, c⟩ q (hq p (by simp) q hp).symm] at h1
      cases h1
      obtain ⟨h1, h2⟩ := ih (fun q hq' => hq q (by simp [hq'])) _ m h
      refine ⟨by rw [h1, List.filterMap_cons_some hp, List.map_cons, List.sum_cons, Int.add_assoc], ?_⟩
      intro h' p' hp'
      rcases List.mem_cons.mp hp' with rfl | hp'
      · rw [hp]; simp
      · exact h2 h' p' hp'

/-- Resolving a transaction of one commodity: every posting gets its account and its amount. -/
theorem resolve_one {env : Env} {c : Com} (hf : ∀ n a, env.find n = .ok a → env.comOf a = c) {t r : PTxn} (h : resolvePTxn env t = .ok r)
    (hq : ∀ p ∈ t.postings, ∀ q, p.quantity = some q → q.com = c) :
    r = { t with postings := r.postings } ∧ List.Forall₂ (fun p q => env.find p.account = .ok q.account ∧ q.quantity = some ⟨unitsOf t p, c⟩ ∧
      q.balance = p.balance ∧ q.notes = p.notes) t.postings r.postings := by
  unfold resolvePTxn at h
  obtain ⟨ps, h1, h2⟩ := bind_ok.mp h
  cases h2
  refine ⟨rfl, ?_⟩
  show List.Forall₂ _ t.postings ps
  unfold resolvePostings at h1
  obtain ⟨qs, h3, h4⟩ := bind_ok.mp h1
  have hqs : List.Forall₂ (fun p q => env.find p.account = .ok q.account ∧ q.quantity = p.quantity ∧ q.balance = p.balance ∧ q.notes = p.notes) t.postings qs :=
    ((mapM_ok _ _ _).mp h3).imp fun p q hpq => by
      obtain ⟨a, ha, rfl⟩ := placePosting_ok.mp hpq
      exact ⟨ha, rfl, rfl, rfl⟩
  have hcs : ∀ x ∈ qs.map (fun p => env.comOf p.account), x = c := by
    intro x hx
    obtain ⟨q, hqm, rfl⟩ := List.mem_map.mp hx
    obtain ⟨p, _, hpq⟩ := forall2_mem_right hqs q hqm
    exact hf _ _ hpq.1
  have hmixed : mixedComs (qs.map (fun p => env.comOf p.account)) = false := by
    revert hcs
    cases qs.map (fun p => env.comOf p.account) with
    | nil => intro _; rfl
    | cons x l =>
      intro hcs
      unfold mixedComs
      rw [List.any_eq_false]
      intro y hy
      rw [hcs y (by simp [hy]), hcs x (by simp)]
      simp
  rw [hmixed, if_neg (by simp)] at h4
  have hquant : ∀ q ∈ qs, ∀ a, q.quantity = some a → a.com = c := by
    intro q hqm a ha
    obtain ⟨p, hp, hpq⟩ := forall2_mem_right hqs q hqm
    exact hq p hp a (by rw [← hpq.2.1]; exact ha)
  have hsum : qs.filterMap (·.quantity) = t.postings.filterMap (·.quantity) := by
    have : ∀ l : List PPost, List.Forall₂ (fun p q : PPost => env.find p.account = .ok q.account ∧ q.quantity = p.quantity ∧ q.balance = p.balance ∧ q.notes = p.notes) l qs →
        qs.filterMap (·.quantity) = l.filterMap (·.quantity) := by
      intro l hl
      clear h1 h3 h4 hcs hmixed hquant hqs
      induction hl with
      | nil => rfl
      | cons h _ ih => simp only [List.filterMap_cons, h.2.1, ih]
    exact this _ hqs
  cases hl : (qs.map (fun p => env.comOf p.account)).getLast? with
  | none =>
    rw [hl] at h4
    cases h4
    have : ps = [] := by simpa using hl
    subst this
    generalize t.postings = l at hqs
    cases hqs
    exact .nil
  | some c' =>
    rw [hl] at h4
    have hc' : c' = c := hcs _ (List.mem_of_getLast? hl)
    subst hc'
    simp only [] at h4
    obtain ⟨x, h5, h6⟩ := bind_ok.mp h4
    obtain ⟨e1, e2⟩ := totalP_one qs hquant 0 false h5
    split at h6
    · cases h6
      rw [List.forall₂_map_right_iff]
      refine forall2_imp_mem hqs ?_
      intro p hp q hpq
      unfold fillQuantity unitsOf
      obtain ⟨k1, k2, k3, k4⟩ := hpq
      cases hpq' : p.quantity with
      | none =>
        rw [hpq'] at k2
        rw [k2]
        refine ⟨k1, ?_, k3, k4⟩
        show some x.1.negated = _
        rw [e1, hsum]
        simp [Amount.negated]
      | some a =>
        rw [hpq'] at k2
        rw [k2]
        refine ⟨k1, ?_, k3, k4⟩
        rw [k2, ← hq p hp a hpq']
    · next hne =>
      split at h6
      · cases h6
        refine forall2_imp_mem hqs ?_
        intro p hp q hpq
        obtain ⟨k1, k2, k3, k4⟩ := hpq
        refine ⟨k1, ?_, k3, k4⟩
        cases hpq' : p.quantity with
        | none =>
          obtain ⟨q', hq', hpq2⟩ := forall2_mem_left hqs p hp
          exact absurd (hpq2.2.1.trans hpq') (e2 (by simpa using hne) q' hq')
        | some a =>
          rw [k2, hpq']
          unfold unitsOf
          rw [hpq', ← hq p hp a hpq']
      · cases h6

open Classical in
/-- What one transaction adds to the own total of an account. -/
noncomputable def txnUnits (names : List Str) (compile : Compile) (f : Filters) (a : Str) (t : PTxn) : Int :=
  (t.postings.map fun p => if mustFindAccount names (patternMatches p.account) p.account = .ok a ∧ Picks compile f t p then unitsOf t p else 0).sum

theorem filter_sum {α : Type} (l : List α) (P : α → Bool) (g : α → Int) : ((l.filter P).map g).sum = (l.map fun x => if P x = true then g x else 0).sum := by
  induction l with
  | nil => rfl
  | cons x l ih =>
    by_cases h : P x = true
    · rw [List.filter_cons_of_pos h, List.map_cons, List.map_cons, List.sum_cons, List.sum_cons, if_pos h, ih]
    · rw [List.filter_cons_of_neg h, List.map_cons, List.sum_cons, if_neg h, ih, Int.zero_add]

theorem ownUnits_eq (names : List Str) (compile : Compile) (f : Filters) (ts : List PTxn) (a : Str) :
    ownUnits names compile f ts a = (ts.map (txnUnits names compile f a)).sum := by
  classical
  unfold ownUnits booked
  rw [filter_sum]
  unfold allPostings
  induction ts with
  | nil => rfl
  | cons t ts ih =>
    rw [List.flatMap_cons, List.map_append, List.sum_append, ih, List.map_cons, List.sum_cons]
    congr 1
    rw [List.map_map]
    unfold txnUnits
    congr 1
    refine List.map_congr_left fun p _ => ?_
    simp only [Function.comp, decide_eq_true_eq]

theorem txnUnits_resolved {names : List Str} (hn : names.Nodup) {env : Env} (hfind : ∀ n, env.find n = mustFindAccount names (patternMatches n) n) {c : Com}
    (hf : ∀ n a, env.find n = .ok a → env.comOf a = c) {t r : PTxn} (h : resolvePTxn env t = .ok r)
    (hq : ∀ p ∈ t.postings, ∀ q, p.quantity = some q → q.com = c) (compile : Compile) (f : Filters) (a : Str) :
    txnUnits names compile f a r = txnUnits names compile f a t := by
  classical
  obtain ⟨e, h2⟩ := resolve_one hf h hq
  rw [e]
  unfold txnUnits
  show (r.postings.map _).sum = _
  have key : List.Forall₂ (fun p q => (if mustFindAccount names (patternMatches q.account) q.account = .ok a ∧ Picks compile f { t with postings := r.postings } q then
        unitsOf { t with postings := r.postings } q else 0) =
      if mustFindAccount names (patternMatches p.account) p.account = .ok a ∧ Picks compile f t p then unitsOf t p else 0) t.postings r.postings := by
    refine h2.imp ?_
    rintro p q ⟨k1, k2, k3, k4⟩
    rw [hfind] at k1
    have hp : Picks compile f { t with postings := r.postings } q ↔ Picks compile f t p := by unfold Picks; rw [k4]
    have hu : unitsOf { t with postings := r.postings } q = unitsOf t p := by
      conv_lhs => unfold unitsOf
      rw [k2]
    rw [mustFind_again hn k1, k1, hu]
    simp only [hp]
  clear e
  revert key
  generalize ({ t with postings := r.postings } : PTxn) = t'
  intro key
  clear h2 hq h
  generalize t.postings = l, r.postings = l' at key
  induction key with
  | nil => rfl
  | cons h _ ih => rw [List.map_cons, List.map_cons, List.sum_cons, List.sum_cons, h, ih]

/-- Formatting changes no own total. -/
theorem ownUnits_formatted {names : List Str} (hn : names.Nodup) {env : Env} (hfind : ∀ n, env.find n = mustFindAccount names (patternMatches n) n) {c : Com}
    (hf : ∀ n a, env.find n = .ok a → env.comOf a = c) {ts rs : List PTxn} (h : formatTxns env false ts = .ok rs)
    (hq : ∀ t ∈ ts, ∀ p ∈ t.postings, ∀ q, p.quantity = some q → q.com = c) (compile : Compile) (f : Filters) (a : Str) :
    (rs.map (txnUnits names compile f a)).sum = (ts.map (txnUnits names compile f a)).sum := by
  unfold formatTxns resolveP at h
  obtain ⟨ss, h3, h4⟩ := bind_ok.mp h
  obtain ⟨us, h5, h6⟩ := bind_ok.mp h3
  cases h6; cases h4
  have : (stableSort pLess us).map (trimTxn false) = stableSort pLess us := by
    have : trimTxn false = id := rfl
    rw [this, List.map_id]
  rw [this, perm_sum_int ((stableSort_perm pLess us).map _)]
  have h5' := (mapM_ok _ _ _).mp h5
  clear h3 h this h5
  induction h5' with
  | nil => rfl
  | cons h _ ih =>
    rw [List.map_cons, List.map_cons, List.sum_cons, List.sum_cons, ih (fun t ht => hq t (by simp [ht])),
      txnUnits_resolved hn hfind hf h (hq _ (by simp))]

/-! ## Loading the formatted file -/

theorem loadReader_disk {d d' : Disk} (h1 : d'.beside = d.beside) (h2 : d'.expand = d.expand) (h3 : d'.glob = d.glob) (today : Today)
    (load : LoadState → Str → Except Fault LoadState) (fn : Str) (n : Nat) (st : LoadState) (L : List Str) :
    loadReader d' today load fn n st L = loadReader d today load fn n st L := by
  have hi : ∀ st i, loadItem d' load fn st i = loadItem d load fn st i := by
    intro st i
    have : ∀ p, includeFiles d' fn p = includeFiles d fn p := by
      intro p
      unfold includeFiles includePath
      rw [h1, h2, h3]
    unfold loadItem
    split
    · rw [this]
    · rfl
  induction n generalizing st L with
  | zero => rfl
  | succ n ih =>
    rw [loadReader, loadReader]
    simp only [hi, ih]

/-- A file from which `fn` is not reached loads as before. -/
theorem loadFileS_away {d : Disk} {fn new : Str} (today : Today) : ∀ (limit : Nat) (g : Str) (st r : LoadState), ¬ Relation.ReflTransGen (Includes d) g fn →
    loadFileS d today limit st g = .ok r → loadFileS (d.put fn new) today limit st g = .ok r := by
  classical
  intro limit
  induction limit with
  | zero => intro g st r _ h; cases h
  | succ limit ih =>
    intro g st r hg h
    have hne : g ≠ fn := by rintro rfl; exact hg .refl
    have hread : (d.put fn new).read g = d.read g := by show (if g = fn then _ else _) = _; rw [if_neg hne]
    cases ht : d.read g with
    | none => unfold loadFileS at h; rw [ht] at h; cases h
    | some text =>
      have hl : ¬ Long text := fun hl => C151_refused d today (limit + 1) st g text ht hl r h
      obtain ⟨e1, e2⟩ := scannedLines_short hl
      unfold loadFileS at h ⊢
      rw [hread]
      rw [ht] at h ⊢
      simp only [e1, e2, loadReaderS_fine] at h ⊢
      rw [loadReader_disk (d := d) (d' := d.put fn new) rfl rfl rfl]
      let load : LoadState → Str → Except Fault LoadState := fun s x => if Relation.ReflTransGen (Includes d) x fn then .error .exit else loadFileS d today limit s x
      have hc := loadReader_congr (d := d) (today := today) (load := loadFileS d today limit) (load' := load) g ((scanLines text).length + 1) ((scanLines text).length + 1)
        (scanLines text) (by omega) (by omega) (by
          intro x hx s
          have : ¬ Relation.ReflTransGen (Includes d) x fn := fun hr => hg (.head ⟨text, ht, hx⟩ hr)
          show _ = if _ then _ else _
          rw [if_neg this]) st
      rw [hc] at h
      refine loadReader_transfer (f := load) ?_ d today g _ _ _ _ h
      intro s x r' hx
      have hx : (if Relation.ReflTransGen (Includes d) x fn then .error .exit else loadFileS d today limit s x) = .ok r' := hx
      split at hx
      · cases hx
      · next hr => exact ih x s r' hr hx

theorem loadEachS_away {d : Disk} {fn new : Str} (today : Today) (limit : Nat) : ∀ (gs : List Str) (st r : LoadState),
    (∀ g ∈ gs, ¬ Relation.ReflTransGen (Includes d) g fn) → loadEachS d today limit st gs = .ok r → loadEachS (d.put fn new) today limit st gs = .ok r := by
  intro gs
  induction gs with
  | nil => intro st r _ h; exact h
  | cons g gs ih =>
    intro st r hg h
    rw [loadEachS] at h ⊢
    obtain ⟨s, h1, h2⟩ := bind_ok.mp h
    exact bind_ok.mpr ⟨s, loadFileS_away today limit g st s (hg g (by simp)) h1, ih s r (fun x hx => hg x (by simp [hx])) h2⟩

theorem loadEachS_append (d : Disk) (today : Today) (limit : Nat) : ∀ (gs hs : List Str) (st : LoadState),
    loadEachS d today limit st (gs ++ hs) = (loadEachS d today limit st gs).bind fun st => loadEachS d today limit st hs := by
  intro gs
  induction gs with
  | nil => intro hs st; rfl
  | cons g gs ih =>
    intro hs st
    rw [List.cons_append, loadEachS, loadEachS]
    cases loadFileS d today limit st g with
    | error e => rfl
    | ok s => exact ih hs s

/-- Items already loaded do not influence what is loaded next; `Except.map` adds them in front. -/
def after (xs : List Item) (st : LoadState) : LoadState := { st with items := xs ++ st.items }

theorem storeItem_after (xs : List Item) (st : LoadState) (i : ItemD) : storeItem (after xs st) i = (storeItem st i).map (after xs) := by
  unfold storeItem after
  split
  · simp [Except.map, List.append_assoc]
  · split
    · rfl
    · simp [Except.map, List.append_assoc]
  · simp [Except.map, List.append_assoc]

theorem exceptMap_bind {α β γ : Type} (x : Except Fault α) (k : α → β) (f : β → Except Fault γ) : (x.map k).bind f = x.bind fun a => f (k a) := by
  cases x <;> rfl

theorem except_bind_map {α β γ : Type} (x : Except Fault α) (f : α → Except Fault β) (k : β → γ) : (x.bind f).map k = x.bind fun a => (f a).map k := by
  cases x <;> rfl

theorem loadFiles_after {load : LoadState → Str → Except Fault LoadState} {xs : List Item} (h : ∀ st g, load (after xs st) g = (load st g).map (after xs)) (fn : Str) :
    ∀ (fs : List Str) (st : LoadState), loadFiles load fn (after xs st) fs = (loadFiles load fn st fs).map (after xs) := by
  intro fs
  induction fs with
  | nil => intro st; rfl
  | cons f fs ih =>
    intro st
    rw [loadFiles, loadFiles]
    split
    · rfl
    · rw [h, exceptMap_bind, except_bind_map]
      simp only [ih]

theorem loadReaderS_after {load : LoadState → Str → Except Fault LoadState} {xs : List Item} (h : ∀ st g, load (after xs st) g = (load st g).map (after xs)) (d : Disk)
    (today : Today) (fn : Str) (failed : Bool) : ∀ (n : Nat) (st : LoadState) (L : List Str),
    loadReaderS d today load fn failed n (after xs st) L = (loadReaderS d today load fn failed n st L).map (after xs) := by
  have hi : ∀ st i, loadItem d load fn (after xs st) i = (loadItem d load fn st i).map (after xs) := by
    intro st i
    unfold loadItem
    split
    · split
      · rfl
      · exact loadFiles_after h fn _ _
    · exact storeItem_after xs st i
  intro n
  induction n with
  | zero => intro st L; rfl
  | succ n ih =>
    intro st L
    rw [loadReaderS, loadReaderS]
    have e : (⟨today, (after xs st).lookup, (after xs st).dflt⟩ : PEnv) = ⟨today, st.lookup, st.dflt⟩ := rfl
    rw [e]
    cases next ⟨today, st.lookup, st.dflt⟩ L with
    | error f => cases f <;> rfl
    | ok r =>
      obtain ⟨i, rest⟩ := r
      cases i with
      | none => cases failed <;> rfl
      | some i =>
        simp only
        split
        · rfl
        · rw [hi, exceptMap_bind, except_bind_map]
          simp only [ih]

theorem loadFileS_after (d : Disk) (today : Today) (xs : List Item) : ∀ (limit : Nat) (st : LoadState) (g : Str),
    loadFileS d today limit (after xs st) g = (loadFileS d today limit st g).map (after xs) := by
  intro limit
  induction limit with
  | zero => intro st g; rfl
  | succ limit ih =>
    intro st g
    unfold loadFileS
    cases d.read g with
    | none => rfl
    | some text => exact loadReaderS_after ih d today g _ _ _ _

theorem loadEachS_after (d : Disk) (today : Today) (xs : List Item) (limit : Nat) : ∀ (gs : List Str) (st : LoadState),
    loadEachS d today limit (after xs st) gs = (loadEachS d today limit st gs).map (after xs) := by
  intro gs
  induction gs with
  | nil => intro st; rfl
  | cons g gs ih =>
    intro st
    rw [loadEachS, loadEachS, loadFileS_after, exceptMap_bind, except_bind_map]
    simp only [ih]

/-- A text of transactions alone: reading it as a file is reading its items, and it changes nothing else. -/
theorem loadLines_only {today : Today} (d : Disk) (load : LoadState → Str → Except Fault LoadState) (fn : Str) : ∀ (n : Nat) (st : LoadState) (L : List Str) (l : LoadState),
    loadLines today n st L = .ok l → ∃ new, l.items = st.items ++ new ∧
      ((∀ i ∈ new, ∃ t, i = Item.transaction t) → l.coms = st.coms ∧ l.dflt = st.dflt ∧ loadReader d today load fn n st L = .ok l) := by
  intro n
  induction n with
  | zero => intro st L l h; cases h; exact ⟨[], by simp, fun _ => ⟨rfl, rfl, rfl⟩⟩
  | succ n ih =>
    intro st L l h
    rw [loadLines] at h
    rw [loadReader]
    cases hx : next ⟨today, st.lookup, st.dflt⟩ L with
    | error f => rw [hx] at h; cases f <;> cases h
    | ok r =>
      obtain ⟨i, rest⟩ := r
      rw [hx] at h
      cases i with
      | none => cases h; exact ⟨[], by simp, fun _ => ⟨rfl, rfl, rfl⟩⟩
      | some i =>
        simp only at h ⊢
        obtain ⟨s, h1, h2⟩ := bind_ok.mp h
        obtain ⟨new, e1, e2⟩ := ih s rest l h2
        have hs := storeItem_items h1
        refine ⟨i.1 :: new, by rw [e1, hs]; simp, ?_⟩
        intro hall
        obtain ⟨t, ht⟩ := hall i.1 (by simp)
        have hst : s = { st with items := st.items ++ [i.1] } := by
          unfold storeItem at h1
          rw [ht] at h1 ⊢
          cases h1
          rfl
        obtain ⟨k1, k2, k3⟩ := e2 (fun j hj => hall j (by simp [hj]))
        rw [hst] at k1 k2
        refine ⟨k1, k2, ?_⟩
        rw [loadItem_store (by intro p hp; rw [ht] at hp; cases hp), h1]
        exact k3

/-- A file of transactions alone. -/
theorem loadFileS_only {d : Disk} {today : Today} {limit : Nat} {fn text : Str} {s l : LoadState} (hr : d.read fn = some text) (hl : ¬ Long text)
    (h : loadText today { s with items := [] } text = .ok l) (hall : ∀ i ∈ l.items, ∃ t, i = Item.transaction t) :
    loadFileS d today (limit + 1) s fn = .ok { s with items := s.items ++ l.items } := by
  unfold loadText at h
  obtain ⟨new, e1, e2⟩ := loadLines_only d (loadFileS d today limit) fn _ _ _ _ h
  simp only [List.nil_append] at e1
  rw [e1] at hall
  obtain ⟨k1, k2, k3⟩ := e2 hall
  have hs : s = after s.items { s with items := [] } := by unfold after; simp
  have hl' : { s with items := s.items ++ l.items } = after s.items l := by
    unfold after
    rw [k1, k2]
  rw [hl']
  conv_lhs => rw [hs]
  rw [loadFileS_after]
  obtain ⟨a1, a2⟩ := scannedLines_short hl
  have : loadFileS d today (limit + 1) { s with items := [] } fn = .ok l := by
    unfold loadFileS
    rw [hr]
    simp only [a1, a2, loadReaderS_fine]
    exact k3
  rw [this]
  rfl

/-! ## C176 -/

/-- What `LoadAll` (coin.go:61-87) has loaded when it comes to a file of transactions after those in `pre`. -/
def loadBefore (P : Install) (pre : List Str) : Except Fault LoadState :=
  (loadFileS P.disk P.today P.limit ⟨[], str "CAD", []⟩ P.files.commodities).bind fun st =>
  (loadEachS P.disk P.today P.limit st (pricesFiles P.disk P.files)).bind fun st =>
  (loadFileS P.disk P.today P.limit st P.files.accounts).bind fun st => loadEachS P.disk P.today P.limit st pre

/-- `fn` is one of the files of transactions of the ledger, read between `pre` and `post`, and no other way: the other files do not
include it. It holds transactions only. What `format` knows about commodities (`st0`) is what is known when the ledger reads the file;
the files of commodities and accounts hold no transactions. -/
structure TxnFile (P : Install) (st0 : LoadState) (fn : Str) (pre post : List Str) : Prop where
  place : transactionFiles P.disk P.files = pre ++ fn :: post
  away : ∀ g, g = P.files.commodities ∨ g ∈ pricesFiles P.disk P.files ∨ g = P.files.accounts ∨ g ∈ pre ∨ g ∈ post → ¬ Relation.ReflTransGen (Includes P.disk) g fn
  only : ∃ text l, P.disk.read fn = some text ∧ loadText P.today { st0 with items := [] } text = .ok l ∧ ∀ i ∈ l.items, ∃ t, i = Item.transaction t
  known : ∀ s, loadBefore P pre = .ok s → s.coms = st0.coms ∧ s.dflt = st0.dflt
  none_before : st0.txns = []

theorem loadAllS_split (P : Install) {fn : Str} {pre post : List Str} (h : transactionFiles P.disk P.files = pre ++ fn :: post) :
    loadAllS P.disk P.today P.limit P.files ⟨[], str "CAD", []⟩ = (loadBefore P pre).bind fun s => (loadFileS P.disk P.today P.limit s fn).bind fun s => loadEachS P.disk P.today P.limit s post := by
  unfold loadAllS loadBefore
  rw [h]
  simp only [loadEachS_append]
  cases loadFileS P.disk P.today P.limit ⟨[], str "CAD", []⟩ P.files.commodities with
  | error e => rfl
  | ok s =>
    show Except.bind (loadEachS _ _ _ s _) _ = Except.bind (Except.bind (loadEachS _ _ _ s _) _) _
    cases loadEachS P.disk P.today P.limit s (pricesFiles P.disk P.files) with
    | error e => rfl
    | ok s =>
      show Except.bind (loadFileS _ _ _ s _) _ = Except.bind (Except.bind (loadFileS _ _ _ s _) _) _
      cases loadFileS P.disk P.today P.limit s P.files.accounts with
      | error e => rfl
      | ok s =>
        show Except.bind (loadEachS _ _ _ s _) _ = Except.bind (loadEachS _ _ _ s _) _
        cases loadEachS P.disk P.today P.limit s pre with
        | error e => rfl
        | ok s => rfl

theorem loadBefore_away {P : Install} {fn new : Str} {pre : List Str} {s : LoadState}
    (h : ∀ g, g = P.files.commodities ∨ g ∈ pricesFiles P.disk P.files ∨ g = P.files.accounts ∨ g ∈ pre → ¬ Relation.ReflTransGen (Includes P.disk) g fn)
    (hl : loadBefore P pre = .ok s) : loadBefore { P with disk := P.disk.put fn new } pre = .ok s := by
  unfold loadBefore at hl ⊢
  obtain ⟨s1, h1, hl⟩ := bind_ok.mp hl
  obtain ⟨s2, h2, hl⟩ := bind_ok.mp hl
  obtain ⟨s3, h3, h4⟩ := bind_ok.mp hl
  refine bind_ok.mpr ⟨s1, loadFileS_away _ _ _ _ _ (h _ (.inl rfl)) h1, bind_ok.mpr ⟨s2, ?_, bind_ok.mpr ⟨s3, ?_, ?_⟩⟩⟩
  · exact loadEachS_away P.today P.limit (pricesFiles P.disk P.files) s1 s2 (fun g hg => h g (.inr (.inl hg))) h2
  · exact loadFileS_away _ _ _ _ _ (h _ (.inr (.inr (.inl rfl)))) h3
  · exact loadEachS_away _ _ _ _ _ (fun g hg => h g (.inr (.inr (.inr hg)))) h4

/-- The accounts `format` resolves and the commodity of all of them. -/
theorem formatEnv_one {st : LoadState} {accts : List Acct} (hn : (accts.map (·.fullName)).Nodup) {c : Com} (hc : ∀ a ∈ accts, st.comFor a = some c) :
    ∀ n a, (formatEnv st accts).find n = .ok a → (formatEnv st accts).comOf a = c := by
  intro n a h
  have hm : a ∈ accts.map (·.fullName) := mustFind_mem hn h
  obtain ⟨x, hx, rfl⟩ := List.mem_map.mp hm
  show st.comOf accts x.fullName = c
  unfold LoadState.comOf
  rw [getAcct_of_mem accts hn x hx]
  show (st.comFor x).getD _ = c
  rw [hc x hx]
  rfl

/-- What completing the transactions of a text gives: transactions as they are read from a text, every posting with its account and amount. -/
theorem formatted_full {today : Today} {st : LoadState} {accts : List Acct} {c : Com} (hn : (accts.map (·.fullName)).Nodup) (hc : ∀ a ∈ accts, st.comFor a = some c)
    (hne : accts ≠ []) (hcom : CommodityName c.id) (hnames : ∀ a ∈ accts, AccountName a.fullName) (hids : (st.coms.map (·.id)).Nodup) {text : Str} {l : LoadState}
    (h1 : loadText today { st with items := [] } text = .ok l) (hcoms : l.coms = st.coms)
    (hq : ∀ t ∈ l.txns, ∀ p ∈ t.postings, ∀ q, p.quantity = some q → q.com = c) {rs : List PTxn} (h2 : resolveP (formatEnv st accts) l.txns = .ok rs) :
    ∀ t ∈ rs, ReadTxn st.lookup t ∧ Full t ∧ ∀ q ∈ t.postings, q.account ∈ accts.map (·.fullName) ∧ ∀ a, q.quantity = some a → a.com = c := by
  have hread := loaded_read h1 rfl (by rw [hcoms]; exact hids)
  have hlk : l.lookup = st.lookup := by funext id; unfold LoadState.lookup; rw [hcoms]
  rw [hlk] at hread
  have hlook : st.lookup c.id = some c := by
    obtain ⟨a, rest, rfl⟩ := List.exists_cons_of_ne_nil hne
    have := hc a (by simp)
    unfold LoadState.comFor at this
    rw [lookup_byId st _ _ this]
    exact this
  intro t ht
  unfold resolveP at h2
  obtain ⟨us, h5, h6⟩ := bind_ok.mp h2
  cases h6
  have hr : t ∈ us := (stableSort_perm _ _).mem_iff.mp ht
  obtain ⟨t0, ht0, hres⟩ := forall2_mem_right ((mapM_ok _ _ _).mp h5) t hr
  have hrt : ReadTxn st.lookup t0 := hread _ (mem_txns.mp ht0)
  obtain ⟨e0, hps⟩ := resolve_one (formatEnv_one hn hc) hres (hq t0 ht0)
  have hmem : ∀ q ∈ t.postings, q.account ∈ accts.map (·.fullName) := by
    intro q hqm
    obtain ⟨p, hp, k1, _⟩ := forall2_mem_right hps q hqm
    exact mustFind_mem hn k1
  have hacc : ∀ q ∈ t.postings, AccountName q.account := by
    intro q hqm
    obtain ⟨x, hx, e⟩ := List.mem_map.mp (hmem q hqm)
    rw [← e]; exact hnames x hx
  refine ⟨⟨by rw [e0]; exact hrt.code, by rw [e0]; exact hrt.description, by rw [e0]; exact hrt.noCode, by rw [e0]; exact hrt.notes, ?_⟩, ?_, ?_⟩
  · intro q hqm
    obtain ⟨p, hp, k1, k2, k3, k4⟩ := forall2_mem_right hps q hqm
    have hp := hrt.postings p hp
    refine ⟨.inr (hacc q hqm), ?_, by rw [k3]; exact hp.balance, by rw [k4]; exact hp.notes⟩
    intro b hb
    rw [k2] at hb
    cases hb
    exact ⟨hcom, hlook⟩
  · intro q hqm
    obtain ⟨p, hp, k1, k2, k3, k4⟩ := forall2_mem_right hps q hqm
    refine ⟨?_, _, k2⟩
    obtain ⟨x, u, he, _⟩ := (hacc q hqm).head
    rw [he]; simp
  · intro q hqm
    refine ⟨hmem q hqm, ?_⟩
    obtain ⟨p, hp, k1, k2, k3, k4⟩ := forall2_mem_right hps q hqm
    intro a ha
    rw [k2] at ha
    cases ha
    rfl

/-- What is written for a file of transactions in one commodity reads back as written. -/
theorem formatted_read {today : Today} {st : LoadState} {accts : List Acct} {c : Com} (hn : (accts.map (·.fullName)).Nodup) (hc : ∀ a ∈ accts, st.comFor a = some c)
    (hne : accts ≠ []) (hcom : CommodityName c.id) (hnames : ∀ a ∈ accts, AccountName a.fullName) (hids : (st.coms.map (·.id)).Nodup) {text : Str} {l : LoadState}
    (h1 : loadText today { st with items := [] } text = .ok l) (hcoms : l.coms = st.coms)
    (hq : ∀ t ∈ l.txns, ∀ p ∈ t.postings, ∀ q, p.quantity = some q → q.com = c) {rs : List PTxn} (h2 : formatTxns (formatEnv st accts) false l.txns = .ok rs)
    (hset : ∀ t ∈ rs, Settled t) (dec : Str → Nat) :
    ∃ lines, writeTxns dec rs = .ok lines ∧ loadText today { st with items := [] } (textOf lines) = .ok { st with items := rs.map Item.transaction } := by
  have hcanon : ∀ t ∈ rs, CanonTxn st.lookup t := by
    intro t ht
    have hs := hset t ht
    unfold formatTxns at h2
    obtain ⟨us, h5, h6⟩ := bind_ok.mp h2
    cases h6
    obtain ⟨r, hr, rfl⟩ := List.mem_map.mp ht
    obtain ⟨k1, k2, _⟩ := formatted_full hn hc hne hcom hnames hids h1 hcoms hq h5 r hr
    exact read_canon k1 hs k2
  obtain ⟨lines, k1, k2⟩ := C53_file_read_back today dec { st with items := [] } rs hcanon
  exact ⟨lines, k1, by simpa using k2⟩

/-- A file of transactions alone, and what the ledger is when it is replaced by another one. -/
theorem replaced_loads {P : Install} {st0 st : LoadState} {fn : Str} {pre post : List Str} (hfile : TxnFile P st0 fn pre post)
    (hl : loadAllS P.disk P.today P.limit P.files ⟨[], str "CAD", []⟩ = .ok st) :
    ∃ before aft text l l', P.disk.read fn = some text ∧ loadText P.today { st0 with items := [] } text = .ok l ∧ l.coms = st0.coms ∧
      st.items = before ++ l.txns.map Item.transaction ++ aft ∧ loadFileS P.disk P.today P.limit st0 fn = .ok l' ∧ l'.txns = l.txns ∧
      ∀ (new : Str) (ts : List PTxn), ¬ Long new → loadText P.today { st0 with items := [] } new = .ok { st0 with items := ts.map Item.transaction } →
        loadAllS (P.disk.put fn new) P.today P.limit P.files ⟨[], str "CAD", []⟩ = .ok { st with items := before ++ ts.map Item.transaction ++ aft } := by
  rw [loadAllS_split P hfile.place] at hl
  obtain ⟨s, h1, hl⟩ := bind_ok.mp hl
  obtain ⟨s2, h2, h3⟩ := bind_ok.mp hl
  obtain ⟨text, l, ht, hlt, hall⟩ := hfile.only
  obtain ⟨hk1, hk2⟩ := hfile.known s h1
  have hshort : ¬ Long text := fun hL => C151_refused P.disk P.today P.limit s fn text ht hL s2 h2
  obtain ⟨limit, hlim⟩ : ∃ k, P.limit = k + 1 := by
    cases hlim : P.limit with
    | zero => rw [hlim] at h2; cases h2
    | succ k => exact ⟨k, rfl⟩
  have hs0 : ({ s with items := [] } : LoadState) = { st0 with items := [] } := by rw [hk1, hk2]
  have hcoms : l.coms = st0.coms := by
    obtain ⟨new, e1, e2⟩ := loadLines_only P.disk (fun s _ => .ok s) fn _ _ _ _ hlt
    simp only [List.nil_append] at e1
    exact (e2 (by rw [← e1]; exact hall)).1
  have hs2 : s2 = { s with items := s.items ++ l.items } := by
    have := loadFileS_only (limit := limit) (s := s) ht hshort (by rw [hs0]; exact hlt) hall
    rw [← hlim] at this
    exact Except.ok.inj (h2.symm.trans this)
  have hown : l.items = l.txns.map Item.transaction := by
    unfold LoadState.txns
    generalize l.items = its at hall
    induction its with
    | nil => rfl
    | cons i its ih =>
      obtain ⟨t, rfl⟩ := hall i (by simp)
      rw [List.filterMap_cons_some (show itemTxn (.transaction t) = some t from rfl), List.map_cons, ← ih (fun j hj => hall j (by simp [hj]))]
  -- the rest of the files
  have hafter : s2 = after (s.items ++ l.items) { s with items := [] } := by rw [hs2]; unfold after; simp
  rw [hafter, loadEachS_after] at h3
  cases hp : loadEachS P.disk P.today P.limit { s with items := [] } post with
  | error e => rw [hp] at h3; cases h3
  | ok sp =>
    rw [hp] at h3
    have h3 : after (s.items ++ l.items) sp = st := Except.ok.inj h3
    have g1 : loadFileS P.disk P.today P.limit st0 fn = .ok { st0 with items := st0.items ++ l.items } := by
      have := loadFileS_only (limit := limit) (s := st0) ht hshort hlt hall
      rwa [← hlim] at this
    refine ⟨s.items, sp.items, text, l, _, ht, hlt, hcoms, ?_, g1, ?_, ?_⟩
    · rw [← h3, ← hown]; rfl
    · have := hfile.none_before
      unfold LoadState.txns at this ⊢
      simp only [List.filterMap_append, this, List.nil_append]
    · intro new ts hlong k2
      have hread : (P.disk.put fn new).read fn = some new := by show (if fn = fn then _ else _) = _; rw [if_pos rfl]
      show loadAllS ({ P with disk := P.disk.put fn new } : Install).disk _ _ _ _ = _
      rw [loadAllS_split { P with disk := P.disk.put fn new } (fn := fn) (pre := pre) (post := post) hfile.place]
      refine bind_ok.mpr ⟨s, loadBefore_away (fun g hg => hfile.away g ?_) h1, bind_ok.mpr ⟨after (s.items ++ ts.map Item.transaction) { s with items := [] }, ?_, ?_⟩⟩
      · rcases hg with h | h | h | h
        · exact .inl h
        · exact .inr (.inl h)
        · exact .inr (.inr (.inl h))
        · exact .inr (.inr (.inr (.inl h)))
      · have := loadFileS_only (d := P.disk.put fn new) (limit := limit) (s := s) hread hlong (by rw [hs0]; exact k2) (by
          intro i hi
          obtain ⟨t, _, rfl⟩ := List.mem_map.mp hi
          exact ⟨t, rfl⟩)
        show loadFileS _ _ P.limit s fn = _
        rw [hlim, this]
        unfold after
        simp
      · rw [loadEachS_after]
        show Except.map _ (loadEachS (P.disk.put fn new) P.today P.limit _ _) = _
        rw [loadEachS_away P.today P.limit post _ sp (fun g hg => hfile.away g (.inr (.inr (.inr (.inr hg))))) hp, ← h3]
        rfl

/-- **C176** Formatting a file of transactions in place leaves a ledger that loads, with all the items of before, except that the
transactions of the file are the completed ones in the order written. -/
theorem C176_loads (P P' : Install) (st0 st : LoadState) (accts0 : List Acct) (L0 : Links) (fn : Str) (pre post : List Str) (c : Com)
    (hA : AccountsOpened P st0 accts0 L0) (hfile : TxnFile P st0 fn pre post) (hl : loadAllS P.disk P.today P.limit P.files ⟨[], str "CAD", []⟩ = .ok st)
    (hc0 : OneCom st0 accts0 c) (hc : ∀ t ∈ st.txns, ∀ p ∈ t.postings, ∀ q, p.quantity = some q → q.com = c)
    (hcom : CommodityName c.id) (hnames : ∀ a ∈ accts0, AccountName a.fullName) (hids : (st0.coms.map (·.id)).Nodup)
    (hP : formatInPlace P false st0 accts0 fn = .ok P') (hlong : ∀ text, P'.disk.read fn = some text → ¬ Long text)
    (hset : ∀ text l, P.disk.read fn = some text → loadText P.today { st0 with items := [] } text = .ok l →
      ∀ rs, formatTxns (formatEnv st0 accts0) false l.txns = .ok rs → ∀ t ∈ rs, Settled t) :
    ∃ before own after rs, st.items = before ++ own.map Item.transaction ++ after ∧ formatTxns (formatEnv st0 accts0) false own = .ok rs ∧
      loadAllS P'.disk P'.today P'.limit P'.files ⟨[], str "CAD", []⟩ = .ok { st with items := before ++ rs.map Item.transaction ++ after } ∧
      ∃ text l, P.disk.read fn = some text ∧ loadText P.today { st0 with items := [] } text = .ok l ∧ own = l.txns := by
  obtain ⟨_, hres, _⟩ := hA
  have hn := (resolved_spec _ _ _ _ hres).1
  have hne : accts0 ≠ [] := by
    have hroot := (resolved_spec _ _ _ _ hres).2.2.2.2
    rintro rfl
    cases hroot
  obtain ⟨before, aft, text, l, l0, ht, hlt, hcoms, hitems, g0, htx, hnew⟩ := replaced_loads hfile hl
  -- what format did
  unfold formatInPlace at hP
  obtain ⟨l', g1, hP⟩ := bind_ok.mp hP
  obtain ⟨rs, g2, hP⟩ := bind_ok.mp hP
  obtain ⟨lines, g3, g4⟩ := bind_ok.mp hP
  cases g4
  have : l' = l0 := Except.ok.inj (g1.symm.trans g0)
  subst this
  rw [htx] at g2
  have hq : ∀ t ∈ l.txns, ∀ p ∈ t.postings, ∀ q, p.quantity = some q → q.com = c := by
    intro t ht'
    refine hc t ?_
    unfold LoadState.txns
    rw [hitems, List.filterMap_append, List.filterMap_append, filterMap_txns]
    exact List.mem_append_left _ (List.mem_append_right _ ht')
  obtain ⟨lines', k1, k2⟩ := formatted_read hn hc0.accounts hne hcom hnames hids hlt hcoms hq g2 (hset text l ht hlt rs g2) (fun a => (st0.comOf accts0 a).decimals)
  have : lines' = lines := Except.ok.inj (k1.symm.trans g3)
  subst this
  have hread : (P.disk.put fn (textOf lines')).read fn = some (textOf lines') := by show (if fn = fn then _ else _) = _; rw [if_pos rfl]
  exact ⟨before, l.txns, aft, rs, hitems, g2, hnew _ rs (hlong _ hread) k2, text, l, ht, hlt, rfl⟩

/-- The ledger of the replaced file. -/
theorem replaced_state {P P' : Install} {compile : Compile} {st st' : LoadState} {accts accts' : List Acct} {g g' : LedgerView} {c : Com} {before aft : List Item}
    {own rs : List PTxn} (hO : Opened P compile st accts g) (hO' : Opened P' compile st' accts' g') 
    (hc : OneCom st accts c) (e1 : st.items = before ++ own.map Item.transaction ++ aft) (e2 : ∀ t ∈ rs, ∀ p ∈ t.postings, ∀ q, p.quantity = some q → q.com = c)
    (e3 : loadAllS P'.disk P'.today P'.limit P'.files ⟨[], str "CAD", []⟩ = .ok { st with items := before ++ rs.map Item.transaction ++ aft }) :
    st.txns = before.filterMap itemTxn ++ own ++ aft.filterMap itemTxn ∧ st'.txns = before.filterMap itemTxn ++ rs ++ aft.filterMap itemTxn ∧
      st'.decls = st.decls ∧ st'.dflt = st.dflt ∧ (∀ t ∈ own, ∀ p ∈ t.postings, ∀ q, p.quantity = some q → q.com = c) ∧ OneCom st' accts' c := by
  have hst' : st' = { st with items := before ++ rs.map Item.transaction ++ aft } := Except.ok.inj (hO'.1.symm.trans e3)
  have hacct : ∀ ts : List PTxn, (ts.map Item.transaction).filterMap itemAcct = [] := by
    intro ts
    rw [List.filterMap_eq_nil_iff]
    intro i hi
    obtain ⟨t, _, rfl⟩ := List.mem_map.mp hi
    rfl
  have htx : st.txns = before.filterMap itemTxn ++ own ++ aft.filterMap itemTxn := by
    unfold LoadState.txns
    rw [e1, List.filterMap_append, List.filterMap_append, filterMap_txns]
  have htx' : st'.txns = before.filterMap itemTxn ++ rs ++ aft.filterMap itemTxn := by
    unfold LoadState.txns
    rw [hst']
    simp only [List.filterMap_append, filterMap_txns]
  have hdecls : st'.decls = st.decls := by
    unfold LoadState.decls
    rw [hst', e1]
    simp only [List.filterMap_append, hacct]
  have hdflt : st'.dflt = st.dflt := by rw [hst']
  have hcoms : st'.coms = st.coms := by rw [hst']
  have hown : ∀ t ∈ own, ∀ p ∈ t.postings, ∀ q, p.quantity = some q → q.com = c := by
    intro t ht'
    exact hc.amounts t (by rw [htx]; simp [ht'])
  have hc' : OneCom st' accts' c := by
    obtain ⟨_, _, _, _, _, _, _, _, _, _, _, _, _, _, _, hR, _⟩ := hO.2
    obtain ⟨_, _, _, _, _, _, _, _, _, _, _, _, _, _, _, hR', _⟩ := hO'.2
    rw [hdflt, hdecls] at hR'
    refine ⟨?_, ?_⟩
    · intro a ha
      have h1 := getAcct_of_mem accts' (resolved_spec _ _ _ _ hR').1 a ha
      rw [← resolved_getAcct hR hR'] at h1
      have h2 : a ∈ accts := List.mem_of_find?_eq_some h1
      have : st'.comFor a = st.comFor a := by unfold LoadState.comFor LoadState.lookup; rw [hcoms, hdflt]
      rw [this]
      exact hc.accounts a h2
    · intro t ht' p hp' q hq
      rw [htx'] at ht'
      rcases List.mem_append.mp ht' with ht' | ht'
      · rcases List.mem_append.mp ht' with ht' | ht'
        · exact hc.amounts t (by rw [htx]; simp only [List.mem_append]; exact .inl (.inl ht')) p hp' q hq
        · exact e2 t ht' p hp' q hq
      · exact hc.amounts t (by rw [htx]; simp only [List.mem_append]; exact .inr ht') p hp' q hq
  exact ⟨htx, htx', hdecls, hdflt, hown, hc'⟩

/-- The ledger of the formatted file. -/
theorem formatted_state {P P' : Install} {compile : Compile} {st0 st st' : LoadState} {accts0 accts accts' : List Acct} {L0 : Links} {g g' : LedgerView} {c : Com} {before aft : List Item}
    {own rs : List PTxn} (hA : AccountsOpened P st0 accts0 L0) (hO : Opened P compile st accts g) (hO' : Opened P' compile st' accts' g') (hc0 : OneCom st0 accts0 c)
    (hc : OneCom st accts c) (e1 : st.items = before ++ own.map Item.transaction ++ aft) (e2 : formatTxns (formatEnv st0 accts0) false own = .ok rs)
    (e3 : loadAllS P'.disk P'.today P'.limit P'.files ⟨[], str "CAD", []⟩ = .ok { st with items := before ++ rs.map Item.transaction ++ aft }) :
    st.txns = before.filterMap itemTxn ++ own ++ aft.filterMap itemTxn ∧ st'.txns = before.filterMap itemTxn ++ rs ++ aft.filterMap itemTxn ∧
      st'.decls = st.decls ∧ st'.dflt = st.dflt ∧ (∀ t ∈ own, ∀ p ∈ t.postings, ∀ q, p.quantity = some q → q.com = c) ∧ OneCom st' accts' c := by
  have hn0 := (resolved_spec _ _ _ _ hA.2.1).1
  have hown : ∀ t ∈ own, ∀ p ∈ t.postings, ∀ q, p.quantity = some q → q.com = c := by
    intro t ht'
    refine hc.amounts t ?_
    unfold LoadState.txns
    rw [e1, List.filterMap_append, List.filterMap_append, filterMap_txns]
    exact List.mem_append_left _ (List.mem_append_right _ ht')
  refine replaced_state hO hO' hc e1 ?_ e3
  intro t ht' p hp' q hq
  unfold formatTxns resolveP at e2
  obtain ⟨ss, h3, h4⟩ := bind_ok.mp e2
  obtain ⟨us, h5, h6⟩ := bind_ok.mp h3
  cases h6; cases h4
  obtain ⟨r, hr, rfl⟩ := List.mem_map.mp ht'
  have hr : r ∈ us := (stableSort_perm _ _).mem_iff.mp hr
  obtain ⟨t0, ht0, hres⟩ := forall2_mem_right ((mapM_ok _ _ _).mp h5) r hr
  obtain ⟨_, hps⟩ := resolve_one (formatEnv_one hn0 hc0.accounts) hres (hown t0 ht0)
  obtain ⟨p0, _, _, k2, _⟩ := forall2_mem_right hps p hp'
  rw [k2] at hq
  cases hq
  rfl

/-- **C176**, full statement: formatting a file of transactions in place changes no report (no locations are shown). -/
def C176_Statement : Prop :=
  ∀ (P P' : Install) (compile : Compile) (st0 st st' : LoadState) (accts0 accts accts' : List Acct) (L0 : Links) (g g' : LedgerView) (fn : Str) (pre post : List Str)
    (fe : FlagEnv) (argv : List Str), AccountsOpened P st0 accts0 L0 → TxnFile P st0 fn pre post → formatInPlace P false st0 accts0 fn = .ok P' →
    Opened P compile st accts g → Opened P' compile st' accts' g' → PlainNames (accts.map (·.fullName)) →
    (g.print.location = fun _ => []) → (g'.print.location = fun _ => []) → g.order = id → g'.order = id → coinMain fe g' argv = coinMain fe g argv

/-- **C176**, what holds: in a ledger of one commodity whose accounts are all known to `format`, the balance report stays the same to the
character, under every filter and flag. Missing: the register, see below. -/
theorem C176_balance_partial (P P' : Install) (compile : Compile) (st0 st st' : LoadState) (accts0 accts accts' : List Acct) (L0 : Links) (g g' : LedgerView)
    (fn : Str) (pre post : List Str) (c : Com) (hA : AccountsOpened P st0 accts0 L0) (hfile : TxnFile P st0 fn pre post)
    (hP : formatInPlace P false st0 accts0 fn = .ok P') (hO : Opened P compile st accts g) (hO' : Opened P' compile st' accts' g')
    (hp : PlainNames (accts.map (·.fullName))) (hc0 : OneCom st0 accts0 c) (hc : OneCom st accts c) (hsame : (accts0.map (·.fullName)).Perm (accts.map (·.fullName)))
    (hcom : CommodityName c.id) (hnames : ∀ a ∈ accts0, AccountName a.fullName) (hids : (st0.coms.map (·.id)).Nodup)
    (hlong : ∀ text, P'.disk.read fn = some text → ¬ Long text)
    (hset : ∀ text l, P.disk.read fn = some text → loadText P.today { st0 with items := [] } text = .ok l →
      ∀ rs, formatTxns (formatEnv st0 accts0) false l.txns = .ok rs → ∀ t ∈ rs, Settled t)
    (fe : FlagEnv) (w : Str) (fl : List (Str × Str)) (toks : List (List Str)) (tail args : List Str) (hw : commandOf w = some .balance)
    (hl : List.Forall₂ (Written fe (flagsOf .balance)) fl toks) (ht : Remaining tail args) (hv : ValidFilters compile (filtersOf fe fl)) :
    coinMain fe g' (w :: (toks.flatten ++ tail)) = coinMain fe g (w :: (toks.flatten ++ tail)) := by
  obtain ⟨before, own, aft, rs, e1, e2, e3, _⟩ := C176_loads P P' st0 st accts0 L0 fn pre post c hA hfile hO.1 hc0 hc.amounts hcom hnames hids hP hlong hset
  obtain ⟨htx, htx', hdecls, hdflt, hown, hc'⟩ := formatted_state hA hO hO' hc0 hc e1 e2 e3
  have hn0 := (resolved_spec _ _ _ _ hA.2.1).1
  have hn : (accts.map (·.fullName)).Nodup := hsame.nodup_iff.mp hn0
  have hu : ∀ a, ownUnits (accts.map (·.fullName)) compile (filtersOf fe fl) st'.txns a = ownUnits (accts.map (·.fullName)) compile (filtersOf fe fl) st.txns a := by
    intro a
    rw [ownUnits_eq, ownUnits_eq, htx, htx']
    simp only [List.map_append, List.sum_append]
    rw [ownUnits_formatted hn (env := formatEnv st0 accts0) (fun n => mustFind_perm hsame _ _) (formatEnv_one hn0 hc0.accounts) e2 hown]
  unfold coinMain
  rw [dispatch_written hw hl ht]
  show (balanceMain fe g' fl args).bind _ = (balanceMain fe g fl args).bind _
  congr 1
  unfold balanceMain
  obtain ⟨_, f2, f3, _, _, hR, _⟩ := opened_balance hO hc (filtersOf fe fl)
  obtain ⟨_, f2', f3', _, _, hR', _⟩ := opened_balance hO' hc' (filtersOf fe fl)
  rw [hdflt, hdecls] at hR'
  have hfind : ∀ a, g'.find a = g.find a := by
    intro a
    unfold LedgerView.find
    rw [f2, f2', f3, f3']
    exact (mustFind_perm (resolved_names_perm hR hR') _ _).symm
  have hacc : g'.account args = g.account args := by
    cases args with
    | nil => rfl
    | cons a rest => exact hfind a
  rw [hacc]
  cases hr : g.account args with
  | error e => rfl
  | ok r =>
    have hm : r ∈ accts.map (·.fullName) := by
      rcases (asked_of f2 f3).mp hr with ⟨_, rfl⟩ | ⟨a, rest, _, hf⟩
      · exact (resolved_spec _ _ _ _ hR).2.2.2.2
      · exact mustFind_mem hn hf
    exact balance_same hO hO' hp hdflt hdecls hc hc' _ hv hu _ _ hm

/-- **C175**, one more case: in a ledger of one commodity the balance report does not depend on any order, whatever prices there are. -/
theorem C175_balance_partial (P : Install) (compile : Compile) (st st' : LoadState) (accts accts' : List Acct) (g g' : LedgerView)
    (hO : Opened P compile st accts g) (hO' : Opened P compile st' accts' g') (hp : PlainNames (accts.map (·.fullName))) (c : Com) (hc : OneCom st accts c)
    (fe : FlagEnv) (w : Str) (fl : List (Str × Str)) (toks : List (List Str)) (tail args : List Str) (hw : commandOf w = some .balance)
    (hl : List.Forall₂ (Written fe (flagsOf .balance)) fl toks) (ht : Remaining tail args) (hv : ValidFilters compile (filtersOf fe fl)) :
    coinMain fe g' (w :: (toks.flatten ++ tail)) = coinMain fe g (w :: (toks.flatten ++ tail)) := by
  have e : st' = st := Except.ok.inj (hO'.1.symm.trans hO.1)
  subst e
  have hc' : OneCom st' accts' c := by
    obtain ⟨_, _, _, _, _, _, _, _, _, _, _, _, _, _, _, hR, _⟩ := hO.2
    obtain ⟨_, _, _, _, _, _, _, _, _, _, _, _, _, _, _, hR', _⟩ := hO'.2
    refine ⟨?_, hc.amounts⟩
    intro a ha
    have h1 := getAcct_of_mem accts' (resolved_spec _ _ _ _ hR').1 a ha
    rw [← resolved_getAcct hR hR'] at h1
    exact hc.accounts a (List.mem_of_find?_eq_some h1)
  unfold coinMain
  rw [dispatch_written hw hl ht]
  show (balanceMain fe g' fl args).bind _ = (balanceMain fe g fl args).bind _
  congr 1
  unfold balanceMain
  obtain ⟨_, f2, f3, _, _, hR, _⟩ := opened_balance hO hc (filtersOf fe fl)
  obtain ⟨_, f2', f3', _, _, hR', _⟩ := opened_balance hO' hc' (filtersOf fe fl)
  have hfind : ∀ a, g'.find a = g.find a := by
    intro a
    unfold LedgerView.find
    rw [f2, f2', f3, f3']
    exact (mustFind_perm (resolved_names_perm hR hR') _ _).symm
  have hacc : g'.account args = g.account args := by
    cases args with
    | nil => rfl
    | cons a rest => exact hfind a
  rw [hacc]
  cases hr : g.account args with
  | error e => rfl
  | ok r =>
    have hm : r ∈ accts.map (·.fullName) := by
      rcases (asked_of f2 f3).mp hr with ⟨_, rfl⟩ | ⟨a, rest, _, hf⟩
      · exact (resolved_spec _ _ _ _ hR).2.2.2.2
      · exact mustFind_mem (resolved_spec _ _ _ _ hR).1 hf
    exact balance_same hO hO' hp rfl rfl hc hc' _ hv (fun _ => rfl) _ _ hm

/-! ### The counterexample: two transactions of one day -/

/-- The balance of Cash is asserted after the first transaction of the day. -/
def fkDir : List (Str × Str) :=
  [(str "commodities.coin", str "commodity CAD\n  format 1.00 CAD\n"), (str "prices.coin", []),
   (str "accounts.coin", str "account Assets:Cash\naccount Food\n"),
   (str "transactions.coin", str "2020/01/02 Pay\n  Cash  10.00 CAD = 10.00 CAD\n  Unbalanced  -10.00 CAD\n\n2020/01/02 Shop\n  Food  3.50 CAD\n  Cash\n")]

def fkInstall : Install := ⟨dirDisk fkDir, ⟨2020, 1, 1⟩, 5, ledgerNames⟩
def fkFile : Str := str "transactions.coin"
/-- What `format -i` writes: the transaction with the assertion goes last. -/
def fkNew : Str := str "2020/01/02 Shop\n  Food          3.50 CAD\n  Assets:Cash  -3.50 CAD\n\n2020/01/02 Pay\n  Assets:Cash   10.00 CAD = 10.00 CAD\n  Unbalanced   -10.00 CAD\n\n"
def fkAfter : Install := { fkInstall with disk := fkInstall.disk.put fkFile fkNew }

def fkPay (cash : Str) : PTxn := ⟨737425, [], str "Pay", [], [⟨cash, some ⟨1000, progCad⟩, some ⟨1000, progCad⟩, []⟩, ⟨str "Unbalanced", some ⟨-1000, progCad⟩, none, []⟩]⟩
def fkShop (cash : Str) (q : Option Amount) : PTxn := ⟨737425, [], str "Shop", [], [⟨str "Food", some ⟨350, progCad⟩, none, []⟩, ⟨cash, q, none, []⟩]⟩
def fkTxns : List PTxn := [fkPay (str "Cash"), fkShop (str "Cash") none]
def fkTxns' : List PTxn := [fkShop (str "Assets:Cash") (some ⟨-350, progCad⟩), fkPay (str "Assets:Cash")]
def fkState0 : LoadState := ⟨[progCad], str "CAD",
  [.commodity ⟨str "CAD", [], 2, false, []⟩, .account ⟨str "Assets:Cash", [], str "CAD", none, [], [], []⟩, .account ⟨str "Food", [], str "CAD", none, [], [], []⟩]⟩
def fkState (ts : List PTxn) : LoadState := { fkState0 with items := fkState0.items ++ ts.map .transaction }
def fkAccts : List Acct := createParents (str "CAD") (baseAccounts (str "CAD") fkState0.decls) (baseAccounts (str "CAD") fkState0.decls)

theorem fk_loads0 : ((loadFileS fkInstall.disk fkInstall.today fkInstall.limit ⟨[], str "CAD", []⟩ fkInstall.files.commodities).bind fun st =>
    loadFileS fkInstall.disk fkInstall.today fkInstall.limit st fkInstall.files.accounts) = .ok fkState0 := load_eq (by decide +kernel)

theorem fk_loads : loadAllS fkInstall.disk fkInstall.today fkInstall.limit fkInstall.files ⟨[], str "CAD", []⟩ = .ok (fkState fkTxns) := load_eq (by decide +kernel)

theorem fk_loads' : loadAllS fkAfter.disk fkAfter.today fkAfter.limit fkAfter.files ⟨[], str "CAD", []⟩ = .ok (fkState fkTxns') := load_eq (by decide +kernel)

def fkLinks : Links :=
  match linkAll 0 (fkAccts.map (·.fullName)) Links.empty (fkAccts.map (·.fullName)) with
  | .ok L => ⟨L.parent, fun p => stableSort (fun a b => strLt (parentAndName a).2 (parentAndName b).2) (L.children p)⟩
  | .error _ => Links.empty

def fkEnv : Env := Env.ofAccounts fkAccts (fkState0.comOf fkAccts) patternMatches (convWith (fun _ => []) (fun _ _ => []) 1)

def fkView (ts : List PTxn) (compile : Compile) : LedgerView :=
  match resolveTransactions fkEnv (heapOf ts) (txnsFrom 0 ts) (fkAccts.map (·.fullName)) with
  | .ok (fin, _) => ledgerView fkEnv compile fkLinks fin (txnsFrom 0 ts) 100 (fun _ => []) id
  | .error _ => cmdLedger

theorem fk_accounts : ResolvedAccounts (str "CAD") fkState0.decls fkAccts fkLinks := by
  obtain ⟨L0, h0⟩ := C20_linking_succeeds (str "CAD") fkState0.decls (baseAccounts (str "CAD") fkState0.decls) _ 0 (List.Perm.refl _) (List.Perm.refl _)
  refine ⟨_, _, 0, L0, List.Perm.refl _, rfl, List.Perm.refl _, h0, ?_⟩
  have : fkLinks = ⟨L0.parent, fun p => stableSort (fun a b => strLt (parentAndName a).2 (parentAndName b).2) (L0.children p)⟩ := by
    unfold fkLinks
    rw [show linkAll 0 (fkAccts.map (·.fullName)) Links.empty (fkAccts.map (·.fullName)) = .ok L0 from h0]
  rw [this]
  exact ⟨rfl, fun p => ⟨stableSort_perm _ _, stableSort_sorted _ (strLt_strictWeak.comap _) _⟩⟩

theorem fk_opens0 : AccountsOpened fkInstall fkState0 fkAccts fkLinks := ⟨fk_loads0, fk_accounts, by decide +kernel⟩

theorem fkState_txns (ts : List PTxn) : (fkState ts).txns = ts := by
  unfold fkState LoadState.txns
  simp only [List.filterMap_append, filterMap_txns]
  rfl

theorem fkState_decls (ts : List PTxn) : (fkState ts).decls = fkState0.decls := by
  unfold fkState LoadState.decls
  simp only [List.filterMap_append]
  rw [show (ts.map Item.transaction).filterMap itemAcct = [] from by
    rw [List.filterMap_eq_nil_iff]
    intro i hi
    obtain ⟨t, _, rfl⟩ := List.mem_map.mp hi
    rfl]
  rw [List.append_nil]

theorem fk_opens (P : Install) (ts : List PTxn) (compile : Compile) (hl : loadAllS P.disk P.today P.limit P.files ⟨[], str "CAD", []⟩ = .ok (fkState ts))
    (hr : (resolveTransactions fkEnv (heapOf ts) (txnsFrom 0 ts) (fkAccts.map (·.fullName))).isOk = true) :
    Opened P compile (fkState ts) fkAccts (fkView ts compile) ∧ (fkView ts compile).print.location = (fun _ => []) ∧ (fkView ts compile).order = id := by
  obtain ⟨⟨fin, sorted⟩, hr⟩ : ∃ r, resolveTransactions fkEnv (heapOf ts) (txnsFrom 0 ts) (fkAccts.map (·.fullName)) = .ok r := by
    cases hx : resolveTransactions fkEnv (heapOf ts) (txnsFrom 0 ts) (fkAccts.map (·.fullName)) with
    | error e => rw [hx] at hr; cases hr
    | ok r => exact ⟨r, rfl⟩
  have hv : fkView ts compile = ledgerView fkEnv compile fkLinks fin (txnsFrom 0 ts) 100 (fun _ => []) id := by unfold fkView; rw [hr]
  refine ⟨⟨hl, [], fun _ => [], fun _ _ => [], 1, fkLinks, fkAccts.map (·.fullName), fin, sorted, 100, fun _ => [], id, ?_, fun _ => .nil, fun _ _ => .refl _, ?_, ?_, ?_,
    List.Perm.refl _, ?_, ?_, ?_⟩, by rw [hv]; rfl, by rw [hv]; rfl⟩
  · have : (fkState ts).items.filterMap itemPrice = [] := by
      unfold fkState
      simp only [List.filterMap_append]
      rw [show (ts.map Item.transaction).filterMap itemPrice = [] from by
        rw [List.filterMap_eq_nil_iff]
        intro i hi
        obtain ⟨t, _, rfl⟩ := List.mem_map.mp hi
        rfl]
      rfl
    rw [this]; rfl
  · intro c x; unfold convert; simp only [convertF]; split <;> rfl
  · rw [fkState_decls]; exact fk_accounts
  · have : ∀ a ∈ fkAccts, (fkState0.comFor a).isSome = true := by decide +kernel
    exact this
  · rw [fkState_txns]; exact hr
  · decide +kernel
  · rw [fkState_txns, hv]; rfl

theorem fk_one (ts : List PTxn) (h : ∀ t ∈ ts, ∀ p ∈ t.postings, ∀ q, p.quantity = some q → q.com = progCad) : OneCom (fkState ts) fkAccts progCad := by
  refine ⟨?_, by rw [fkState_txns]; exact h⟩
  have : ∀ a ∈ fkAccts, fkState0.comFor a = some progCad := by decide +kernel
  exact this

theorem fk_one0 : OneCom fkState0 fkAccts progCad := ⟨by decide +kernel, by decide +kernel⟩

theorem fk_formats : formatInPlace fkInstall false fkState0 fkAccts fkFile = .ok fkAfter := by
  have e1 : loadFileS fkInstall.disk fkInstall.today fkInstall.limit fkState0 fkFile = .ok (fkState fkTxns) := load_eq (by decide +kernel)
  have e2 : formatTxns (formatEnv fkState0 fkAccts) false fkTxns = .ok fkTxns' := ok_of_opt (by decide +kernel)
  have e3 : ∃ lines, writeTxns (fun a => (fkState0.comOf fkAccts a).decimals) fkTxns' = .ok lines ∧ textOf lines = fkNew := by
    have h : (writeTxns (fun a => (fkState0.comOf fkAccts a).decimals) fkTxns').toOption.map textOf = some fkNew := by decide +kernel
    cases hx : writeTxns (fun a => (fkState0.comOf fkAccts a).decimals) fkTxns' with
    | error e => rw [hx] at h; cases h
    | ok r => rw [hx] at h; exact ⟨r, rfl, Option.some.inj h⟩
  obtain ⟨lines, e3, e4⟩ := e3
  unfold formatInPlace
  refine bind_ok.mpr ⟨_, e1, bind_ok.mpr ⟨fkTxns', ?_, bind_ok.mpr ⟨lines, e3, ?_⟩⟩⟩
  · rw [fkState_txns]; exact e2
  · rw [e4]; rfl

theorem fk_noIncludes : ∀ f g, ¬ Includes fkInstall.disk f g := by
  rintro f g ⟨text, hr, hg⟩
  have hall : ∀ e ∈ fkDir, includedBy fkInstall.disk e.1 ((scanLines e.2).length + 1) (scanLines e.2) = [] := by decide +kernel
  have hm : (f, text) ∈ fkDir := by
    have hl : ∀ (dir : List (Str × Str)) (t : Str), dir.lookup f = some t → (f, t) ∈ dir := by
      intro dir t
      induction dir with
      | nil => intro h; cases h
      | cons e dir ih =>
        intro h
        rw [List.lookup_cons] at h
        split at h
        · rename_i hf
          cases h
          rw [LawfulBEq.eq_of_beq hf]
          exact List.mem_cons_self
        · exact List.mem_cons_of_mem _ (ih h)
    exact hl fkDir text hr
  rw [hall _ hm] at hg
  cases hg

theorem fk_file : TxnFile fkInstall fkState0 fkFile [] [] := by
  refine ⟨by decide +kernel, ?_, ⟨_, { fkState0 with items := fkTxns.map .transaction }, rfl, load_eq (by decide +kernel), ?_⟩, ?_, by decide +kernel⟩
  · intro g hg hi
    have hne : g ≠ fkFile := by
      rcases hg with rfl | hg | rfl | hg | hg
      · decide
      · have : pricesFiles fkInstall.disk fkInstall.files = [str "prices.coin"] := by decide +kernel
        rw [this] at hg
        simp only [List.mem_singleton] at hg
        subst hg
        decide
      · decide
      · cases hg
      · cases hg
    rcases Relation.ReflTransGen.cases_head hi with rfl | ⟨b, hb, _⟩
    · exact hne rfl
    · exact fk_noIncludes _ _ hb
  · intro i hi
    obtain ⟨t, _, rfl⟩ := List.mem_map.mp hi
    exact ⟨t, rfl⟩
  · intro s hs
    have : loadBefore fkInstall [] = .ok fkState0 := load_eq (by decide +kernel)
    cases (this.symm.trans hs)
    exact ⟨rfl, rfl⟩

theorem fk_plain : PlainNames (fkAccts.map (·.fullName)) := by
  intro a ha
  have h : ∀ a ∈ fkAccts.map (·.fullName), a.head? ≠ some ':' ∧ a.take 5 ≠ str "Root:" := by decide +kernel
  obtain ⟨h1, h2⟩ := h a ha
  refine ⟨?_, ?_⟩
  · rintro x rfl
    exact h1 rfl
  · rintro ⟨_, x, rfl⟩
    exact h2 rfl

theorem fk_first : (coinMain cmdFlags (fkView fkTxns fun _ => none) [str "register", str "Cash"]).toOption =
    some (str "Assets:Cash CAD\n2020/01/02 |  Pay | Unbalanced | 10.00 | 10.00 CAD*\n2020/01/02 | Shop |       Food | -3.50 | 6.50 CAD \n") := by decide +kernel

theorem fk_second : (coinMain cmdFlags (fkView fkTxns' fun _ => none) [str "register", str "Cash"]).toOption =
    some (str "Assets:Cash CAD\n2020/01/02 | Shop |       Food | -3.50 | -3.50 CAD \n2020/01/02 |  Pay | Unbalanced | 10.00 | 6.50 CAD*\n") := by decide +kernel

/-- C176 is false: the transactions of one day change places, and the asserted balance, correct before, is wrong after. -/
theorem C176_formatting_violated : ¬ C176_Statement := by
  intro h
  obtain ⟨o1, l1, r1⟩ := fk_opens fkInstall fkTxns (fun _ => none) fk_loads (by decide +kernel)
  obtain ⟨o2, l2, r2⟩ := fk_opens fkAfter fkTxns' (fun _ => none) fk_loads' (by decide +kernel)
  have h := h fkInstall fkAfter (fun _ => none) fkState0 _ _ fkAccts fkAccts fkAccts fkLinks _ _ fkFile [] [] cmdFlags [str "register", str "Cash"]
    fk_opens0 fk_file fk_formats o1 o2 fk_plain l1 l2 r1 r2
  have e := congrArg Except.toOption h
  rw [fk_first, fk_second] at e
  exact absurd e (by decide +kernel)

/-! ### Non-vacuity -/

theorem fk_names : ∀ a ∈ fkAccts, AccountName a.fullName := by
  have acct : ∀ a : Str, (∃ x t, a = x :: t ∧ isAlpha x = true ∧ ∀ y ∈ t, isNameChar y = true) → Segment a := fun a h => h
  have h : ∀ a ∈ fkAccts, a.fullName = str "Root" ∨ a.fullName = str "Unbalanced" ∨ a.fullName = str "Assets" ∨ a.fullName = str "Assets:Cash" ∨ a.fullName = str "Food" := by decide +kernel
  intro a ha
  rcases h a ha with e | e | e | e | e <;> rw [e]
  · exact .one (acct _ ⟨'R', str "oot", rfl, by decide, by decide⟩)
  · exact .one (acct _ ⟨'U', str "nbalanced", rfl, by decide, by decide⟩)
  · exact .one (acct _ ⟨'A', str "ssets", rfl, by decide, by decide⟩)
  · exact .cons (s := str "Assets") (t := str "Cash") (acct _ ⟨'A', str "ssets", rfl, by decide, by decide⟩) (.one (acct _ ⟨'C', str "ash", rfl, by decide, by decide⟩))
  · exact .one (acct _ ⟨'F', str "ood", rfl, by decide, by decide⟩)

theorem fk_settled : ∀ t ∈ fkTxns', Settled t := by
  intro t ht
  unfold fkTxns' at ht
  simp only [List.mem_cons, List.not_mem_nil, or_false] at ht
  rcases ht with rfl | rfl
  · refine ⟨by unfold PlainYear; decide +kernel, by decide, by decide, by unfold SafeNotes; decide, by decide, ?_, ?_⟩
    · intro p hp
      simp only [fkShop, List.mem_cons, List.not_mem_nil, or_false] at hp
      rcases hp with rfl | rfl <;> (unfold SafeNotes; decide)
    · intro p hp q hq
      simp only [fkShop, List.mem_cons, List.not_mem_nil, or_false] at hp
      rcases hp with rfl | rfl <;> rcases hq with hq | hq <;> cases hq <;> (unfold FitsText progCad; decide)
  · refine ⟨by unfold PlainYear; decide +kernel, by decide, by decide, by unfold SafeNotes; decide, by decide, ?_, ?_⟩
    · intro p hp
      simp only [fkPay, List.mem_cons, List.not_mem_nil, or_false] at hp
      rcases hp with rfl | rfl <;> (unfold SafeNotes; decide)
    · intro p hp q hq
      simp only [fkPay, List.mem_cons, List.not_mem_nil, or_false] at hp
      rcases hp with rfl | rfl <;> rcases hq with hq | hq <;> cases hq <;> (unfold FitsText progCad; decide)

theorem fk_short : ∀ text, fkAfter.disk.read fkFile = some text → ¬ Long text := by
  intro text h
  have : fkAfter.disk.read fkFile = some fkNew := by decide +kernel
  have e : fkNew = text := Option.some.inj (this.symm.trans h)
  rw [← e]
  unfold Long
  decide +kernel

theorem fk_reads : ∀ text l, fkInstall.disk.read fkFile = some text → loadText fkInstall.today { fkState0 with items := [] } text = .ok l →
    ∀ rs, formatTxns (formatEnv fkState0 fkAccts) false l.txns = .ok rs → ∀ t ∈ rs, Settled t := by
  intro text l h1 h2 rs h3
  obtain ⟨text', l', k1, k2, _⟩ := fk_file.only
  have k : loadText fkInstall.today { fkState0 with items := [] } text = .ok { fkState0 with items := fkTxns.map .transaction } := by
    have e : fkInstall.disk.read fkFile = some (str "2020/01/02 Pay\n  Cash  10.00 CAD = 10.00 CAD\n  Unbalanced  -10.00 CAD\n\n2020/01/02 Shop\n  Food  3.50 CAD\n  Cash\n") := by
      decide +kernel
    cases e.symm.trans h1
    exact load_eq (by decide +kernel)
  cases k.symm.trans h2
  have e : formatTxns (formatEnv fkState0 fkAccts) false fkTxns = .ok fkTxns' := ok_of_opt (by decide +kernel)
  have e2 : ({ fkState0 with items := fkTxns.map .transaction } : LoadState).txns = fkTxns := filterMap_txns _
  rw [e2, e] at h3
  cases h3
  exact fk_settled

/-- All hypotheses of `C176_loads` hold of this ledger. -/
example : ∃ before own after rs, (fkState fkTxns).items = before ++ own.map Item.transaction ++ after ∧ formatTxns (formatEnv fkState0 fkAccts) false own = .ok rs ∧
    loadAllS fkAfter.disk fkAfter.today fkAfter.limit fkAfter.files ⟨[], str "CAD", []⟩ = .ok { fkState fkTxns with items := before ++ rs.map Item.transaction ++ after } ∧
    ∃ text l, fkInstall.disk.read fkFile = some text ∧ loadText fkInstall.today { fkState0 with items := [] } text = .ok l ∧ own = l.txns :=
  C176_loads fkInstall fkAfter fkState0 (fkState fkTxns) fkAccts fkLinks fkFile [] [] progCad fk_opens0 fk_file fk_loads fk_one0 (fk_one fkTxns (by decide +kernel)).amounts
    ⟨'C', str "AD", rfl, by decide, by decide⟩ fk_names (by decide +kernel) fk_formats fk_short fk_reads

/-- All hypotheses of `C176_balance_partial` hold of this ledger, although its register changes. -/
example : coinMain cmdFlags (fkView fkTxns' fun _ => none) [str "balance"] = coinMain cmdFlags (fkView fkTxns fun _ => none) [str "balance"] :=
  C176_balance_partial fkInstall fkAfter (fun _ => none) fkState0 (fkState fkTxns) (fkState fkTxns') fkAccts fkAccts fkAccts fkLinks _ _ fkFile [] [] progCad fk_opens0 fk_file
    fk_formats (fk_opens fkInstall fkTxns _ fk_loads (by decide +kernel)).1 (fk_opens fkAfter fkTxns' _ fk_loads' (by decide +kernel)).1 fk_plain fk_one0
    (fk_one fkTxns (by decide +kernel)) (.refl _) ⟨'C', str "AD", rfl, by decide, by decide⟩ fk_names (by decide +kernel) fk_short fk_reads
    cmdFlags (str "balance") [] [] [] [] (by decide) .nil .nothing ⟨fun h => absurd (by decide +kernel) h, fun h => absurd (by decide +kernel) h⟩

/-- All hypotheses of `C175_balance_partial` hold of this ledger. -/
example (st' : LoadState) (accts' : List Acct) (g' : LedgerView) (hO : Opened fkInstall (fun _ => none) st' accts' g') :
    coinMain cmdFlags g' [str "balance"] = coinMain cmdFlags (fkView fkTxns fun _ => none) [str "balance"] :=
  C175_balance_partial fkInstall (fun _ => none) (fkState fkTxns) st' fkAccts accts' _ g' (fk_opens fkInstall fkTxns _ fk_loads (by decide +kernel)).1 hO fk_plain progCad
    (fk_one fkTxns (by decide +kernel)) cmdFlags (str "balance") [] [] [] [] (by decide) .nil .nothing
    ⟨fun h => absurd (by decide +kernel) h, fun h => absurd (by decide +kernel) h⟩

end Verif
