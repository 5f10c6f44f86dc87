import Verif.Props.Balance
import Verif.Lemmas.Totals
/-!
# Properties C39, C40, C47, C48: the plain register and the inverted filters
-/
namespace Verif

variable {names : List Str} {L : Links}

/-! ## Specification -/

/-- The payee matches an expression: `x` as a regular expression, `!x` when it does not match `x`. -/
def PayeeMatch (compile : Compile) (expr payee : Str) : Prop :=
  ∃ m, compile (stripBang expr).2 = some m ∧ (m payee = true ↔ (stripBang expr).1 = false)

/-- A posting selected by the flags of `register`. -/
def RegSelected (compile : Compile) (v : View) (f : Filters) (p : PRef) : Prop :=
  (∀ b ∈ f.begin_, b ≤ v.date p) ∧ (∀ e ∈ f.end_, v.date p < e) ∧
  (f.payee ≠ [] → PayeeMatch compile f.payee (v.payee p)) ∧
  (f.tag ≠ [] → TagSelects compile f.tag ((v.tags p).getD []) ∨ TagSelects compile f.tag ((v.txnTags p).getD []))

open Classical in
/-- The postings of an account that should be listed. -/
noncomputable def regSelectedOf (compile : Compile) (v : View) (f : Filters) (a : Str) : List PRef :=
  (v.postings a).filter (fun p => decide (RegSelected compile v f p))

/-- The expressions given with `-p` (after `!`) and `-t` are valid. -/
def RegValid (compile : Compile) (f : Filters) : Prop :=
  (f.payee ≠ [] → ∃ m, compile (stripBang f.payee).2 = some m) ∧ (f.tag ≠ [] → ∃ m, newTagMatcher compile f.tag = .ok m)

/-! ## Selection lemmas -/

theorem bang_match (m inv : Bool) : ((m && !inv) || (!m && inv)) = true ↔ (m = true ↔ inv = false) := by
  cases m <;> cases inv <;> simp

theorem registerTrim_spec (compile : Compile) (v : View) (f : Filters) (a : Str) (hv : RegValid compile f)
    (hs : InDateOrder v.date (v.postings a)) :
    registerTrim compile v f (v.postings a) = .ok ((stripBang f.payee).2, regSelectedOf compile v f a) := by
  classical
  unfold registerTrim regSelectedOf
  rw [C34_trim v.date (v.postings a) f.begin_ f.end_ hs]
  have h1 : ∃ P : PRef → Bool, (∀ p, P p = true ↔ (f.payee ≠ [] → PayeeMatch compile f.payee (v.payee p))) ∧
      ∀ l, filterPayeeInv compile v f.payee l = .ok ((stripBang f.payee).2, l.filter P) := by
    by_cases hp : f.payee = []
    · exact ⟨fun _ => true, by simp [hp], fun l => by simp [filterPayeeInv, hp, stripBang]⟩
    · obtain ⟨m, hm⟩ := hv.1 hp
      refine ⟨fun p => (m (v.payee p) && !(stripBang f.payee).1) || (!m (v.payee p) && (stripBang f.payee).1), ?_, ?_⟩
      · intro p
        rw [bang_match]
        constructor
        · intro h _; exact ⟨m, hm, h⟩
        · intro h
          obtain ⟨m', hm', h'⟩ := h hp
          rw [hm] at hm'; injection hm' with e; subst e; exact h'
      · intro l; simp [filterPayeeInv, hp, hm]
  have h2 : ∃ P : PRef → Bool, (∀ p, P p = true ↔ (f.tag ≠ [] → TagSelects compile f.tag ((v.tags p).getD []) ∨ TagSelects compile f.tag ((v.txnTags p).getD []))) ∧
      ∀ l, filterTag compile v f.tag l = .ok (l.filter P) := by
    by_cases hp : f.tag = []
    · exact ⟨fun _ => true, by simp [hp], fun l => by simp [filterTag, hp]⟩
    · obtain ⟨m, hm⟩ := hv.2 hp
      exact ⟨fun p => m.matches (v.tags p) || m.matches (v.txnTags p), by intro p; rw [← tag_either]; simp [hp, hm], fun l => by simp [filterTag, hp, hm, Except.bind]⟩
  obtain ⟨P1, e1, f1⟩ := h1
  obtain ⟨P2, e2, f2⟩ := h2
  rw [f1]
  simp only [Except.bind]
  rw [f2]
  simp only
  congr 2
  unfold inRange
  rw [List.filter_filter, List.filter_filter]
  apply List.filter_congr
  intro p _
  rw [Bool.eq_iff_iff]
  rw [Bool.and_eq_true, Bool.and_eq_true, e1, e2, decide_eq_true_iff, decide_eq_true_iff]
  constructor
  · rintro ⟨⟨h1, h2⟩, h3, h4⟩; exact ⟨h3, h4, h2, h1⟩
  · intro h; obtain ⟨h3, h4, h2, h1⟩ := h; exact ⟨⟨h1, h2⟩, h3, h4⟩

/-- A payee expression that is not inverted. -/
def NoBang (payee : Str) : Prop := (stripBang payee).1 = false

theorem noBang_rest {payee : Str} (h : NoBang payee) : (stripBang payee).2 = payee := by
  unfold NoBang at h
  unfold stripBang at h ⊢
  split at h <;> simp_all

theorem registerWalk_spec (compile : Compile) (v : View) (f : Filters) (hv : RegValid compile f) (hb : NoBang f.payee) (accs : List Str)
    (hs : ∀ a ∈ accs, InDateOrder v.date (v.postings a)) :
    registerWalk compile v f f.payee accs = .ok (accs.map (fun a => (a, regSelectedOf compile v f a))) := by
  induction accs with
  | nil => rfl
  | cons a accs ih =>
    rw [registerWalk]
    have : ({ f with payee := f.payee } : Filters) = f := rfl
    rw [this, registerTrim_spec compile v f a hv (hs a (by simp))]
    simp only [Except.bind]
    rw [noBang_rest hb, ih (fun b hb => hs b (by simp [hb]))]
    rfl

/-! ## Running totals -/

theorem runningTotals_same (conv : Conv) (c : Com) (s : Int) (qs : List Amount) (hq : ∀ q ∈ qs, q.com = c) :
    ∃ ts, runningTotals conv ⟨s, c⟩ qs = .ok ts ∧ ts.length = qs.length ∧
      ∀ i (h : i < ts.length), ts[i] = ⟨s + total (qs.take (i + 1)), c⟩ := by
  induction qs generalizing s with
  | nil => exact ⟨[], rfl, rfl, by simp⟩
  | cons q qs ih =>
    obtain ⟨ts, h1, h2, h3⟩ := ih (s + q.int) (fun x hx => hq x (by simp [hx]))
    refine ⟨⟨s + q.int, c⟩ :: ts, ?_, by simp [h2], ?_⟩
    · rw [runningTotals, addIn_same conv ⟨s, c⟩ q (hq q (by simp)).symm]
      simp only [checkNoError, Except.bind]
      rw [h1]; rfl
    · intro i hi
      cases i with
      | zero => simp [total]
      | succ i =>
        have := h3 i (by simpa using hi)
        simp only [List.getElem_cons_succ, List.take_succ_cons]
        rw [this]
        simp [total, add_assoc]

theorem printRows_spec (conv : Conv) (v : View) (siblings : PRef → List PRef) (c : Com) (ps : List PRef)
    (ho : ∀ p ∈ ps, ∃ q ∈ siblings p, q ≠ p) (hq : ∀ p ∈ ps, (v.qty p).com = c) :
    ∃ rows, printRows conv v siblings c ps = .ok rows ∧ rows.map (·.1) = ps ∧
      (∀ i (h : i < rows.length), rows[i].2.2 = ⟨total ((ps.take (i + 1)).map v.qty), c⟩) ∧
      (∀ r ∈ rows, r.2.1 ∈ siblings r.1 ∧ r.2.1 ≠ r.1) := by
  have hother : ∀ p ∈ ps, ∃ q, other (siblings p) p = some q ∧ q ∈ siblings p ∧ q ≠ p := by
    intro p hp
    obtain ⟨q, hq1, hq2⟩ := ho p hp
    have : (other (siblings p) p).isSome = true := by
      unfold other; rw [List.find?_isSome]; exact ⟨q, hq1, by simpa using hq2⟩
    obtain ⟨q', hq'⟩ := Option.isSome_iff_exists.mp this
    refine ⟨q', hq', List.mem_of_find?_eq_some hq', ?_⟩
    have := List.find?_some hq'
    simpa using this
  obtain ⟨ts, h1, h2, h3⟩ := runningTotals_same conv c 0 (ps.map v.qty) (by
    intro q hq'; obtain ⟨p, hp, rfl⟩ := List.mem_map.mp hq'; exact hq p hp)
  have hlen : ts.length = ps.length := by simpa using h2
  refine ⟨(ps.zip ts).map (fun e => (e.1, (other (siblings e.1) e.1).getD 0, e.2)), ?_, ?_, ?_, ?_⟩
  · unfold printRows
    rw [if_neg]
    · rw [show zeroAmount c = (⟨0, c⟩ : Amount) from rfl, h1]; rfl
    · simp only [List.any_eq_true, not_exists, not_and]
      intro p hp
      obtain ⟨q, hq, _⟩ := hother p hp
      rw [hq]; simp
  · rw [List.map_map]
    have : ((fun x : PRef × PRef × Amount => x.1) ∘ fun e : PRef × Amount => (e.1, (other (siblings e.1) e.1).getD 0, e.2)) = Prod.fst := rfl
    rw [this, List.map_fst_zip (by omega)]
  · intro i hi
    simp only [List.getElem_map, List.getElem_zip]
    rw [h3 i (by simp at hi; omega), List.map_take]
    simp
  · intro r hr
    obtain ⟨e, he, rfl⟩ := List.mem_map.mp hr
    obtain ⟨q, hq, h1, h2⟩ := hother e.1 (List.of_mem_zip he).1
    simp only [hq, Option.getD_some]
    exact ⟨h1, h2⟩

theorem familyOf_perm (t : TreeOK names L) (r : Str) (hr : r ∈ names) : (walkOf names L r).Perm (familyOf names r) := by
  classical
  have := t.walk_perm r hr
  unfold familyOf
  exact this

theorem dateLt_strictWeak (date : PRef → Int) : StrictWeak (fun p q : PRef => decide (date p < date q)) :=
  intLt_strictWeak.comap date

/-- **C39** The rows of the register are the selected postings of the account (with `-r` of the account and everything below it),
every one listed as often as it is in the account lists (so exactly once in a loaded ledger, C29), in date order, and the running
total on row `i` is the exact sum of the quantities of rows `0..i`.
For `-r` the payee expression is not inverted (the inverted one does not select what it should, see C47), and every listed posting
has another one in its transaction (otherwise the command crashes, see C40). -/
theorem C39_register_rows {dflt : Str} {decls accts : List Acct} (h : ResolvedAccounts dflt decls accts L) (env : Env) (compile : Compile)
    (v : View) (siblings : PRef → List PRef) (f : Filters) (hv : RegValid compile f) (fuel : Nat) (recurse : Bool) (r : Str) (c : Com)
    (hr : r ∈ accts.map (·.fullName)) (hc : OneCommodity env v (accts.map (·.fullName)) r c) (hf : treeFuel (accts.map (·.fullName)) ≤ fuel)
    (hbang : recurse = true → NoBang f.payee)
    (hsib : ∀ a ∈ accts.map (·.fullName), InSub r a → ∀ p ∈ v.postings a, ∃ q ∈ siblings p, q ≠ p) :
    ∃ rows, fullRegister env compile v siblings L fuel f recurse r = .ok rows ∧
      (rows.map (·.1)).Perm ((if recurse then familyOf (accts.map (·.fullName)) r else [r]).flatMap (regSelectedOf compile v f)) ∧
      (rows.map (·.1)).Pairwise (fun p q => v.date p ≤ v.date q) ∧
      (∀ i (hi : i < rows.length), rows[i].2.2 = ⟨total ((rows.take (i + 1)).map (fun row => v.qty row.1)), c⟩) ∧
      (∀ row ∈ rows, row.2.1 ∈ siblings row.1 ∧ row.2.1 ≠ row.1) := by
  have t := TreeOK.of h
  set names := accts.map (·.fullName)
  have hmem := t.mem_walk r hr
  have hsel : ∀ a, regSelectedOf compile v f a ⊆ v.postings a := fun a p hp => List.mem_of_mem_filter hp
  have fin : ∀ ps : List PRef, (∀ p ∈ ps, ∃ a ∈ names, InSub r a ∧ p ∈ v.postings a) →
      ∃ rows, printRows env.conv v siblings c ps = .ok rows ∧ rows.map (·.1) = ps ∧
      (∀ i (hi : i < rows.length), rows[i].2.2 = ⟨total ((rows.take (i + 1)).map (fun row => v.qty row.1)), c⟩) ∧
      (∀ row ∈ rows, row.2.1 ∈ siblings row.1 ∧ row.2.1 ≠ row.1) := by
    intro ps hps
    obtain ⟨rows, h1, h2, h3, h4⟩ := printRows_spec env.conv v siblings c ps
      (fun p hp => by obtain ⟨a, ha, hs, hm⟩ := hps p hp; exact hsib a ha hs p hm)
      (fun p hp => by obtain ⟨a, ha, hs, hm⟩ := hps p hp; exact hc.qty a ha hs p hm)
    refine ⟨rows, h1, h2, ?_, h4⟩
    intro i hi
    rw [h3 i hi, ← h2, ← List.map_take, List.map_map]
    rfl
  unfold fullRegister
  rw [hc.com r hr (.inl rfl)]
  cases recurse with
  | false =>
    simp only [Bool.false_eq_true, if_false]
    rw [registerTrim_spec compile v f r hv (hc.sorted r hr)]
    simp only [Except.bind]
    obtain ⟨rows, h1, h2, h3, h4⟩ := fin (regSelectedOf compile v f r) (fun p hp => ⟨r, hr, .inl rfl, hsel r hp⟩)
    refine ⟨rows, h1, by rw [h2]; simp, ?_, h3, h4⟩
    rw [h2]; exact (hc.sorted r hr).filter _
  | true =>
    simp only [if_true]
    rw [t.walk_fuel fuel hf r hr, registerWalk_spec compile v f hv (hbang rfl) _ (fun a ha => hc.sorted a ((hmem a).mp ha).1)]
    simp only [Except.bind]
    have e : ((walkOf names L r).map (fun a => (a, regSelectedOf compile v f a))).flatMap (·.2) =
        (walkOf names L r).flatMap (regSelectedOf compile v f) := by
      rw [List.flatMap_map]
    rw [e]
    have hp := stableSort_perm (fun p q => decide (v.date p < v.date q)) ((walkOf names L r).flatMap (regSelectedOf compile v f))
    obtain ⟨rows, h1, h2, h3, h4⟩ := fin (stableSort (fun p q => decide (v.date p < v.date q)) ((walkOf names L r).flatMap (regSelectedOf compile v f)))
      (fun p hpm => by
        obtain ⟨a, ha, hpa⟩ := List.mem_flatMap.mp (hp.mem_iff.mp hpm)
        exact ⟨a, ((hmem a).mp ha).1, ((hmem a).mp ha).2, hsel a hpa⟩)
    refine ⟨rows, h1, ?_, ?_, h3, h4⟩
    · rw [h2]
      exact hp.trans ((familyOf_perm t r hr).flatMap_right _)
    · rw [h2]
      have := stableSort_sorted _ (dateLt_strictWeak v.date) ((walkOf names L r).flatMap (regSelectedOf compile v f))
      exact this.imp (by intro a b hab; simpa using hab)

/-! ## C40: registers of loaded ledgers -/

/-- The full property: for every ledger of one commodity that loads, the register without filters prints. -/
def C40_Statement : Prop :=
  ∀ (env : Env) (heap : Heap) (txns sorted : List Txn) (order : List Str) (fin : Loaded) (dflt : Str) (decls accts : List Acct) (L : Links)
    (tagsOf : List Str → Tags) (compile : Compile) (c : Com) (r : Str) (recurse : Bool),
    Parsed heap txns → order.Nodup → resolveTransactions env heap txns order = .ok (fin, sorted) →
    ResolvedAccounts dflt decls accts L → order.Perm (accts.map (·.fullName)) →
    (∀ a, env.comOf a = c) → (∀ t ∈ txns, ∀ p ∈ t.postings, ∀ q, (heap p).quantity = some q → q.com = c) →
    r ∈ accts.map (·.fullName) →
    ∃ rows, fullRegister env compile (viewOf tagsOf fin txns) (siblingsOf txns) L (treeFuel (accts.map (·.fullName))) ⟨none, none, [], []⟩ recurse r
      = .ok rows

/-- What loading establishes for the commands. -/
theorem loaded_view {env : Env} {heap : Heap} {txns sorted : List Txn} {order : List Str} {fin : Loaded}
    (hp : Parsed heap txns) (hnd : order.Nodup) (h : resolveTransactions env heap txns order = .ok (fin, sorted)) (tagsOf : List Str → Tags)
    {c : Com} (hc : ∀ a, env.comOf a = c) (hq : ∀ t ∈ txns, ∀ p ∈ t.postings, ∀ q, (heap p).quantity = some q → q.com = c) :
    (∀ a, InDateOrder (viewOf tagsOf fin txns).date (fin.books.postings a)) ∧
    (∀ a p, p ∈ fin.books.postings a → ∃ t ∈ txns, p ∈ t.postings ∧ siblingsOf txns p = t.postings) ∧
    (∀ a p, p ∈ fin.books.postings a → ((viewOf tagsOf fin txns).qty p).com = c) := by
  obtain ⟨st, h1, h2, _⟩ := load_parts h
  obtain ⟨g1, _, g3, _⟩ := phase2 hp hnd h1 h2
  have hs1 := (phase1 hp h1).2.2.1
  have hb := (phase1 hp h1).2.1
  have hdate : ∀ p, (fin.heap p).posted = (heap p).posted := fun p => ((g3 p).1).trans (hs1 p).1
  have hin : ∀ a p, p ∈ fin.books.postings a → ∃ t ∈ txns, p ∈ t.postings := by
    intro a p hpm
    rw [g1] at hpm
    have := ((hb.mem a p).mp hpm).1
    simpa using this
  refine ⟨?_, ?_, ?_⟩
  · intro a
    rw [g1]
    unfold InDateOrder viewOf
    simp only [hdate]
    exact hb.sorted a
  · intro a p hpm
    obtain ⟨t, ht, hpt⟩ := hin a p hpm
    have : (txnOf txns p).isSome = true := by
      unfold txnOf; rw [List.find?_isSome]; exact ⟨t, ht, by simpa using hpt⟩
    obtain ⟨t', ht'⟩ := Option.isSome_iff_exists.mp this
    refine ⟨t', List.mem_of_find?_eq_some ht', by simpa using List.find?_some ht', by simp [siblingsOf, ht']⟩
  · intro a p hpm
    obtain ⟨t, ht, hpt⟩ := hin a p hpm
    obtain ⟨q, hq1, hq2⟩ := (C26_loaded_balanced env heap txns order fin sorted hp hnd h t ht c (fun p _ a _ => hc a) (hq t ht)).1 p hpt
    simp only [viewOf, hq1, Option.getD_some, hq2]

/-- **C40** A loaded ledger of one commodity in which every transaction has at least two postings: the register prints, with any
filters that are valid expressions (not inverted with `-r`).
Missing for the full statement: transactions with a single posting (they load when its amount is elided or zero) make it crash. -/
theorem C40_register_completes_partial (env : Env) (heap : Heap) (txns sorted : List Txn) (order : List Str) (fin : Loaded) (dflt : Str)
    (decls accts : List Acct) (L : Links) (tagsOf : List Str → Tags) (compile : Compile) (c : Com) (r : Str) (recurse : Bool) (f : Filters)
    (hp : Parsed heap txns) (hnd : order.Nodup) (h : resolveTransactions env heap txns order = .ok (fin, sorted))
    (hacc : ResolvedAccounts dflt decls accts L)
    (hc : ∀ a, env.comOf a = c) (hq : ∀ t ∈ txns, ∀ p ∈ t.postings, ∀ q, (heap p).quantity = some q → q.com = c)
    (hr : r ∈ accts.map (·.fullName)) (h2 : ∀ t ∈ txns, 2 ≤ t.postings.length)
    (hv : RegValid compile f) (hbang : recurse = true → NoBang f.payee) :
    ∃ rows, fullRegister env compile (viewOf tagsOf fin txns) (siblingsOf txns) L (treeFuel (accts.map (·.fullName))) f recurse r = .ok rows := by
  obtain ⟨l1, l2, l3⟩ := loaded_view hp hnd h tagsOf hc hq
  obtain ⟨rows, h1, _⟩ := C39_register_rows hacc env compile (viewOf tagsOf fin txns) (siblingsOf txns) f hv (treeFuel (accts.map (·.fullName)))
    recurse r c hr ⟨fun a _ => l1 a, fun a _ _ => hc a, fun a _ _ p hpm => l3 a p hpm⟩ (Nat.le_refl _) hbang (by
      intro a _ _ p hpm
      obtain ⟨t, ht, hpt, e⟩ := l2 a p hpm
      rw [e]
      have hlen := h2 t ht
      have hnt : t.postings.Nodup := (List.nodup_flatMap.mp hp.nodup).1 t ht
      by_contra hno
      push Not at hno
      have : t.postings ⊆ [p] := fun q hq => by simp [hno q hq]
      have := List.Subperm.length_le (List.subperm_of_subset hnt this)
      simp at this; omega)
  exact ⟨rows, h1⟩

def oneHeap : Heap := fun _ => ⟨5, str "A", none, none, false, []⟩
def oneTxns : List Txn := [⟨5, [], str "x", [], [0]⟩]

/-- **C40 does not hold**: a transaction with one posting and no amount loads (as zero), and the register of its account crashes. -/
theorem C40_register_violated : ¬ C40_Statement := by
  classical
  intro hall
  obtain ⟨accts, L, hacc⟩ := resolved_exists (str "CAD") [accountFromName (str "CAD") (str "A")]
  have hA : str "A" ∈ accts.map (·.fullName) := by
    rw [(C21_exactly_missing_ancestors _ _ _ _ hacc).2]
    right; right
    exact ⟨_, List.mem_singleton.mpr rfl, .inl rfl⟩
  have hnodup : (accts.map (·.fullName)).Nodup := (TreeOK.of hacc).nodup
  let env : Env := ⟨[str "A"], fun _ => sampleCom, fun _ => .ok (str "A"), fun _ _ => .error .err⟩
  have hparsed : Parsed oneHeap oneTxns := ⟨by simp [oneTxns], by simp [oneTxns, oneHeap], fun p => rfl⟩
  have hload : ∃ r, resolveTransactions env oneHeap oneTxns (accts.map (·.fullName)) = .ok r := by
    rw [C27_load_succeeds_iff _ _ _ _ hparsed hnodup (by simp [oneTxns, oneHeap])]
    intro t ht
    have ht : t = ⟨5, [], str "x", [], [0]⟩ := by simpa [oneTxns] using ht
    subst ht
    refine ⟨fun p _ => ⟨str "A", rfl⟩, ?_, ?_⟩
    · intro hno; exact absurd ⟨sampleCom, fun p _ a _ => rfl⟩ hno
    · intro _; exact ⟨by simp [oneHeap], fun hh => absurd rfl (hh 0 (by simp))⟩
  obtain ⟨⟨fin, sorted⟩, hload⟩ := hload
  obtain ⟨rows, hrows⟩ := hall env oneHeap oneTxns sorted _ fin (str "CAD") _ accts L (fun _ => none) (fun _ => none) sampleCom (str "A") false
    hparsed hnodup hload hacc (List.Perm.refl _) (fun _ => rfl) (by simp [oneTxns, oneHeap]) hA
  obtain ⟨l1, l2, l3⟩ := loaded_view hparsed hnodup hload (fun _ => none) (c := sampleCom) (fun _ => rfl) (by simp [oneTxns, oneHeap])
  have h0 : (0 : PRef) ∈ fin.books.postings (str "A") := by
    have := (C29_running_balances env oneHeap oneTxns _ fin sorted hparsed hnodup hload (str "A") hA (by
      intro p hp q hq
      have := l3 _ p hp
      simp only [viewOf, hq, Option.getD_some] at this
      exact this)).2.1 0
    exact this.mpr ⟨⟨_, List.mem_singleton.mpr rfl, by simp⟩, rfl⟩
  unfold fullRegister at hrows
  simp only [Bool.false_eq_true, if_false] at hrows
  rw [registerTrim_spec _ _ _ _ ⟨fun h => absurd rfl h, fun h => absurd rfl h⟩ (l1 _)] at hrows
  simp only [Except.bind, printRows] at hrows
  rw [if_pos] at hrows
  · simp at hrows
  · rw [List.any_eq_true]
    refine ⟨0, List.mem_filter.mpr ⟨h0, ?_⟩, by decide⟩
    exact decide_eq_true (p := RegSelected _ _ _ _) ⟨by simp, by simp, fun h => absurd rfl h, fun h => absurd rfl h⟩

/-! ## C47: inverted payee filter -/

/-- The full property: with `-r` and any payee expression, inverted or not, the listed postings are the selected ones of the whole
subtree. -/
def C47_Statement : Prop :=
  ∀ (dflt : Str) (decls accts : List Acct) (L : Links) (env : Env) (compile : Compile) (v : View) (siblings : PRef → List PRef) (f : Filters)
    (r : Str) (c : Com), ResolvedAccounts dflt decls accts L → RegValid compile f → r ∈ accts.map (·.fullName) →
    OneCommodity env v (accts.map (·.fullName)) r c → (∀ p, ∃ q ∈ siblings p, q ≠ p) →
    ∃ rows, fullRegister env compile v siblings L (treeFuel (accts.map (·.fullName))) f true r = .ok rows ∧
      ∀ p, p ∈ rows.map (·.1) ↔ ∃ a ∈ accts.map (·.fullName), InSub r a ∧ p ∈ v.postings a ∧ RegSelected compile v f p

/-- What the command does select: after the first account the `!` is gone. -/
theorem registerWalk_bang (compile : Compile) (v : View) (f : Filters) (hv : RegValid compile f) (hb : NoBang (stripBang f.payee).2)
    (hv2 : RegValid compile { f with payee := (stripBang f.payee).2 }) (a : Str) (accs : List Str)
    (hs : ∀ b ∈ a :: accs, InDateOrder v.date (v.postings b)) :
    registerWalk compile v f f.payee (a :: accs) = .ok ((a, regSelectedOf compile v f a) ::
      accs.map (fun b => (b, regSelectedOf compile v { f with payee := (stripBang f.payee).2 } b))) := by
  rw [registerWalk]
  have : ({ f with payee := f.payee } : Filters) = f := rfl
  rw [this, registerTrim_spec compile v f a hv (hs a (by simp))]
  simp only [Except.bind]
  have := registerWalk_spec compile v { f with payee := (stripBang f.payee).2 } hv2 hb accs (fun b hb => hs b (by simp [hb]))
  have e : ∀ payee, registerWalk compile v { f with payee := (stripBang f.payee).2 } payee accs = registerWalk compile v f payee accs := by
    intro payee
    clear this hs
    induction accs generalizing payee with
    | nil => rfl
    | cons b accs ih => rw [registerWalk, registerWalk]; simp only [ih]
  rw [e] at this
  rw [this]

/-- **C47** Without `-r` the inverted expression selects exactly the postings whose payee does not match (and that pass the other
filters). Missing for the full statement: with `-r` it fails for every account but the first. -/
theorem C47_inverted_payee_partial {dflt : Str} {decls accts : List Acct} (h : ResolvedAccounts dflt decls accts L) (env : Env)
    (compile : Compile) (v : View) (siblings : PRef → List PRef) (b e : Option Int) (x : Str) (m : Str → Bool) (hm : compile x = some m)
    (fuel : Nat) (r : Str) (c : Com) (hr : r ∈ accts.map (·.fullName)) (hc : OneCommodity env v (accts.map (·.fullName)) r c)
    (hf : treeFuel (accts.map (·.fullName)) ≤ fuel)
    (hsib : ∀ a ∈ accts.map (·.fullName), InSub r a → ∀ p ∈ v.postings a, ∃ q ∈ siblings p, q ≠ p) :
    ∃ rows, fullRegister env compile v siblings L fuel ⟨b, e, '!' :: x, []⟩ false r = .ok rows ∧
      ∀ p, p ∈ rows.map (·.1) ↔ p ∈ v.postings r ∧ (∀ d ∈ b, d ≤ v.date p) ∧ (∀ d ∈ e, v.date p < d) ∧ m (v.payee p) = false := by
  classical
  obtain ⟨rows, h1, h2, _⟩ := C39_register_rows h env compile v siblings ⟨b, e, '!' :: x, []⟩
    ⟨fun _ => ⟨m, by simpa [stripBang] using hm⟩, fun h => absurd rfl h⟩ fuel false r c hr hc hf (by simp) hsib
  refine ⟨rows, h1, ?_⟩
  intro p
  rw [h2.mem_iff]
  simp only [Bool.false_eq_true, if_false, List.flatMap_cons, List.flatMap_nil, List.append_nil, regSelectedOf, List.mem_filter]
  rw [decide_eq_true_iff]
  simp only [RegSelected, PayeeMatch, stripBang, hm, ne_eq, List.cons_ne_nil, not_false_eq_true, true_imp_iff, not_true, false_imp_iff,
    and_true, Option.some.injEq, exists_eq_left', Bool.true_eq_false, iff_false, Bool.not_eq_true]

/-- **C47 does not hold**: `register -r -p '!x' A` where `A:B` has a posting with payee `y`. -/
theorem C47_inverted_payee_violated : ¬ C47_Statement := by
  classical
  intro hall
  obtain ⟨accts, L, hacc⟩ := resolved_exists (str "CAD") [accountFromName (str "CAD") (str "A:B")]
  have t := TreeOK.of hacc
  have hAB : str "A:B" ∈ accts.map (·.fullName) := by
    rw [(C21_exactly_missing_ancestors _ _ _ _ hacc).2]
    right; right; exact ⟨_, List.mem_singleton.mpr rfl, .inl rfl⟩
  have hanc : AncName (str "A") (str "A:B") := ⟨by simp [str, rootName], .inr ⟨by simp [str], str "B", by simp [str]⟩⟩
  have hA : str "A" ∈ accts.map (·.fullName) := by
    rw [(C21_exactly_missing_ancestors _ _ _ _ hacc).2]
    right; right; exact ⟨_, List.mem_singleton.mpr rfl, .inr ⟨by decide, str "B", by decide⟩⟩
  let v : View := ⟨fun a => if a = str "A:B" then [0] else [], fun _ => 0, fun _ => str "y", fun _ => none, fun _ => none, fun _ => ⟨1, sampleCom⟩⟩
  let compile : Compile := fun x => some (fun s => decide (s = x))
  have hs : ∀ b, InDateOrder v.date (v.postings b) := by
    intro b; unfold InDateOrder; simp only [v]; split <;> simp
  have hv : ∀ payee, RegValid compile ⟨none, none, payee, []⟩ := fun _ => ⟨fun _ => ⟨_, rfl⟩, fun h => absurd rfl h⟩
  obtain ⟨rows, h1, h2⟩ := hall (str "CAD") _ accts L sampleEnv compile v (fun p => [p, p + 1]) ⟨none, none, str "!x", []⟩ (str "A") sampleCom
    hacc (hv _) hA ⟨fun a _ => hs a, fun _ _ _ => rfl, fun _ _ _ _ _ => rfl⟩ (fun p => ⟨p + 1, by simp, by simp⟩)
  have hsel := (h2 0).mpr ⟨str "A:B", hAB, .inr hanc, by simp [v], by simp, by simp,
    fun _ => ⟨_, rfl, by simp only [stripBang, v]; decide⟩, fun h => absurd rfl h⟩
  unfold fullRegister at h1
  simp only [if_true] at h1
  have hw : registerWalk compile v ⟨none, none, str "!x", []⟩ (str "!x") (walkOf (accts.map (·.fullName)) L (str "A")) =
      .ok ((walkOf (accts.map (·.fullName)) L (str "A")).map (fun a => (a, []))) := by
    rw [t.walk_cons]
    have := registerWalk_bang compile v ⟨none, none, str "!x", []⟩ (hv _) (by unfold NoBang; decide) (hv _) (str "A")
      ((L.children (str "A")).flatMap (walkOf (accts.map (·.fullName)) L)) (fun b _ => hs b)
    rw [this]
    simp only [List.map_cons, Except.ok.injEq, List.cons.injEq, Prod.mk.injEq, true_and]
    refine ⟨by simp [regSelectedOf, v, str], ?_⟩
    apply List.map_congr_left
    intro b _
    simp only [Prod.mk.injEq, true_and]
    unfold regSelectedOf
    rw [List.filter_eq_nil_iff]
    intro p _
    rw [decide_eq_true_iff]
    rintro ⟨_, _, hh, _⟩
    obtain ⟨m, hm, hm2⟩ := hh (by decide)
    have : m = fun s => decide (s = str "x") := by
      have hm' : compile (str "x") = some m := hm
      injection hm' with hm'; exact hm'.symm
    subst this
    have := hm2.mpr (by decide)
    simp only [v] at this
    have hne : ¬ (str "y" = str "x") := by simp [str]
    exact hne (of_decide_eq_true this)
  have hw' := congrArg (fun x => x.bind fun l => printRows sampleEnv.conv v (fun p => [p, p + 1]) (sampleEnv.comOf (str "A"))
      (stableSort (fun p q => decide (v.date p < v.date q)) (l.flatMap (·.2)))) hw
  simp only [walkOf] at hw'
  rw [hw'] at h1
  have e : ((subtree L.children (treeFuel (accts.map (·.fullName))) (str "A")).map (fun a => (a, ([] : List PRef)))).flatMap (·.2) = [] := by
    simp
  simp only [Except.bind, e] at h1
  have : rows = [] := by
    simp [stableSort, printRows, runningTotals, Except.bind] at h1
    exact h1
  rw [this] at hsel
  simp at hsel

/-! ## C48: inverted tag filter -/

/-- An item (posting with its transaction) is selected by a tag expression. -/
def TagSelected (compile : Compile) (expr : Str) (tags txnTags : Tags) : Prop :=
  ∃ m, newTagMatcher compile expr = .ok m ∧ (m.matches tags = true ∨ m.matches txnTags = true)

/-- The full property: `!e` selects exactly what `e` does not. -/
def C48_Statement : Prop :=
  ∀ (compile : Compile) (e : Str) (tags txnTags : Tags), NoBang e → (∃ m, newTagMatcher compile e = .ok m) →
    (TagSelected compile ('!' :: e) tags txnTags ↔ ¬ TagSelected compile e tags txnTags)

/-- Number of tags of an item. -/
def tagCount : Tags → Nat
  | none => 0
  | some l => l.length

theorem bang_matcher (compile : Compile) (e : Str) (hb : NoBang e) (m : TagMatcher) (hm : newTagMatcher compile e = .ok m) :
    newTagMatcher compile ('!' :: e) = .ok { m with inverted := true } ∧ m.inverted = false := by
  have h1 : stripBang e = (false, e) := by
    rw [← noBang_rest hb]
    have := hb
    unfold NoBang at this
    ext <;> simp [noBang_rest hb, this]
  have h2 : stripBang ('!' :: e) = (true, e) := rfl
  unfold newTagMatcher at hm ⊢
  rw [h1] at hm
  rw [h2]
  simp only at hm ⊢
  cases hk : compile (splitFirstColon e).1 with
  | none => rw [hk] at hm; simp at hm
  | some k =>
    rw [hk] at hm
    simp only at hm ⊢
    cases hw : (splitFirstColon e).2 with
    | none => rw [hw] at hm; simp only [Except.ok.injEq] at hm ⊢; subst hm; exact ⟨rfl, rfl⟩
    | some w =>
      rw [hw] at hm
      simp only at hm ⊢
      cases hu : compile w with
      | none => rw [hu] at hm; simp at hm
      | some u => rw [hu] at hm; simp only [Except.ok.injEq] at hm ⊢; subst hm; exact ⟨rfl, rfl⟩

/-- **C48** It holds for items that have exactly one tag (on the posting and the transaction together).
Missing: items without tags are never selected, items with several tags are selected as soon as one of them does not match. -/
theorem C48_inverted_tag_partial (compile : Compile) (e : Str) (tags txnTags : Tags) (hb : NoBang e)
    (hv : ∃ m, newTagMatcher compile e = .ok m) (h1 : tagCount tags + tagCount txnTags = 1) :
    TagSelected compile ('!' :: e) tags txnTags ↔ ¬ TagSelected compile e tags txnTags := by
  obtain ⟨m, hm⟩ := hv
  obtain ⟨g1, g2⟩ := bang_matcher compile e hb m hm
  unfold TagSelected
  rw [g1, hm]
  simp only [Except.ok.injEq, exists_eq_left']
  have hnil : ∀ (mm : TagMatcher) (tt : Tags), tagCount tt = 0 → mm.matches tt = false := by
    intro mm tt h
    cases tt with
    | none => rfl
    | some l => simp [tagCount] at h; subst h; rfl
  have hone : ∀ (tt : Tags), tagCount tt = 1 → ({ m with inverted := true } : TagMatcher).matches tt = !m.matches tt := by
    intro tt h
    cases tt with
    | none => simp [tagCount] at h
    | some l =>
      obtain ⟨kv, rfl⟩ := List.length_eq_one_iff.mp h
      simp only [TagMatcher.matches, List.any_cons, List.any_nil, Bool.or_false, g2]
      have : ({ m with inverted := true } : TagMatcher).hit kv = m.hit kv := rfl
      rw [this]; cases m.hit kv <;> rfl
  rcases (by omega : (tagCount tags = 1 ∧ tagCount txnTags = 0) ∨ (tagCount tags = 0 ∧ tagCount txnTags = 1)) with ⟨a, b⟩ | ⟨a, b⟩
  · rw [hone _ a, hnil _ _ b, hnil _ _ b]; simp
  · rw [hone _ b, hnil _ _ a, hnil _ _ a]; simp

/-- What an inverted expression selects in general: items having some tag that does not match. -/
theorem C48_inverted_tag_selects (compile : Compile) (e : Str) (tags txnTags : Tags) (hb : NoBang e) (m : TagMatcher)
    (hm : newTagMatcher compile e = .ok m) :
    TagSelected compile ('!' :: e) tags txnTags ↔
      ∃ l ∈ [tags, txnTags], ∃ kv ∈ l.getD [], ¬ (m.key kv.1 = true ∧ ∀ w ∈ m.value, w kv.2 = true) := by
  obtain ⟨g1, g2⟩ := bang_matcher compile e hb m hm
  have key : ∀ tt : Tags, ({ m with inverted := true } : TagMatcher).matches tt = true ↔
      ∃ kv ∈ tt.getD [], ¬ (m.key kv.1 = true ∧ ∀ w ∈ m.value, w kv.2 = true) := by
    intro tt
    cases tt with
    | none => simp [TagMatcher.matches]
    | some l =>
      simp only [TagMatcher.matches, List.any_eq_true, Option.getD_some]
      constructor
      · rintro ⟨kv, hkv, h⟩
        refine ⟨kv, hkv, ?_⟩
        rintro ⟨h1, h2⟩
        have : ({ m with inverted := true } : TagMatcher).hit kv = true := by
          unfold TagMatcher.hit
          simp only [h1, Bool.true_and]
          cases hv : m.value with
          | none => rfl
          | some w => exact h2 w hv
        rw [this] at h; simp at h
      · rintro ⟨kv, hkv, h⟩
        refine ⟨kv, hkv, ?_⟩
        have : ({ m with inverted := true } : TagMatcher).hit kv = false := by
          rw [Bool.eq_false_iff]
          intro hh
          apply h
          unfold TagMatcher.hit at hh
          rw [Bool.and_eq_true] at hh
          refine ⟨hh.1, ?_⟩
          intro w hw
          have := hh.2
          simp only at this
          have hw' : m.value = some w := hw
          rw [hw'] at this; exact this
        simp [this]
  unfold TagSelected
  rw [g1]
  simp only [Except.ok.injEq, exists_eq_left', key, List.mem_cons, List.not_mem_nil, or_false]
  constructor
  · rintro (h | h)
    · exact ⟨tags, .inl rfl, h⟩
    · exact ⟨txnTags, .inr rfl, h⟩
  · rintro ⟨l, rfl | rfl, h⟩
    · exact .inl h
    · exact .inr h

/-- **C48 does not hold**: a posting without any tag is selected neither by `x` nor by `!x`. -/
theorem C48_inverted_tag_violated : ¬ C48_Statement := by
  intro h
  have := (h (fun x => some (fun s => decide (s = x))) (str "x") none none (by unfold NoBang; decide) ⟨_, rfl⟩).mpr (by
    rintro ⟨m, _, h | h⟩ <;> simp [TagMatcher.matches] at h)
  obtain ⟨m, _, h | h⟩ := this <;> simp [TagMatcher.matches] at h

/-! ## Non-vacuity of C39 -/

example : ∃ accts L, ResolvedAccounts (str "CAD") balDecls accts L ∧ str "A" ∈ accts.map (·.fullName) ∧
    OneCommodity sampleEnv balView (accts.map (·.fullName)) (str "A") sampleCom ∧ RegValid (fun _ => none) ⟨some 1, none, [], []⟩ ∧
    (∀ a p, p ∈ balView.postings a → ∃ q ∈ [0, 1, 2], q ≠ p) := by
  obtain ⟨accts, L, h⟩ := resolved_exists (str "CAD") balDecls
  refine ⟨accts, L, h, ?_, ⟨?_, fun _ _ _ => rfl, fun _ _ _ _ _ => rfl⟩, ?_, ?_⟩
  · rw [(C21_exactly_missing_ancestors _ _ _ _ h).2]
    right; right
    exact ⟨_, List.mem_cons_self, .inr ⟨by decide, str "B", by decide⟩⟩
  · intro a _
    unfold InDateOrder balView
    simp only
    split
    · decide
    · split <;> simp
  · exact ⟨fun h => absurd rfl h, fun h => absurd rfl h⟩
  · intro a p _
    by_cases hp : p = 0
    · exact ⟨1, by simp, by rw [hp]; decide⟩
    · exact ⟨0, by simp, fun h => hp h.symm⟩

/-- The model run: `register -r -b <day 1> A`. -/
example : (fullRegister sampleEnv (fun _ => none) balView (fun _ => [0, 1, 2]) balLinks 7 ⟨some 1, none, [], []⟩ true (str "A")).toOption.map
    (fun rows => rows.map (fun r => (r.1, r.2.1, r.2.2.int))) = some [(1, 0, 7), (2, 0, 5)] := by decide +kernel

end Verif
