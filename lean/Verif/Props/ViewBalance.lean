import Verif.Props.Views
/-!
# Property C122: balances on the page
-/
namespace Verif

/-- The full statement of C122: at the end of a day the page's balance of an account is the sum of the quantities of its postings
up to that day, when all asserted balances were found to be right. -/
def C122_Statement : Prop := ∀ (loc : Txn → Str) (env : Env) (heap : Heap) (txns : List Txn) (order : List Str) (fin : Loaded) (sorted : List Txn),
  Parsed heap txns → order.Nodup → resolveTransactions env heap txns order = .ok (fin, sorted) → fin.warnings = [] →
  ∀ (a : WAcct) (d : Int), a.fullName ∈ order → (∀ p ∈ fin.books.postings a.fullName, ∀ q, (fin.heap p).quantity = some q → q.com = env.comOf a.fullName) →
    (balanceAt (pageTxns loc fin sorted) a (86400 * d)).int =
      (((acctPosts (pageTxns loc fin sorted) a.fullName).filter (fun v => decide (v.txn.posted ≤ 86400 * d))).map (fun v : VPost => v.post.quantity.int)).sum

/-- A day with a transaction asserting a balance, written before another one. -/
def dayHeap : Heap := fun p =>
  [(⟨5, str "A", some ⟨100, sampleCom⟩, some ⟨100, sampleCom⟩, true, []⟩ : PData), ⟨5, str "B", some ⟨-100, sampleCom⟩, none, false, []⟩,
   ⟨5, str "A", some ⟨-30, sampleCom⟩, none, false, []⟩, ⟨5, str "B", some ⟨30, sampleCom⟩, none, false, []⟩].getD p ⟨0, [], none, none, false, []⟩

def dayTxns : List Txn := [⟨5, [], str "x", [], [0, 1]⟩, ⟨5, [], str "y", [], [2, 3]⟩]

theorem dayParsed : Parsed dayHeap dayTxns := by
  refine ⟨by decide, by decide, ?_⟩
  intro p
  by_cases h : p < 4
  · revert h; revert p; decide
  · unfold dayHeap
    rw [List.getD_eq_getElem?_getD, List.getElem?_eq_none (by simpa using Nat.le_of_not_lt h)]; rfl

/-- **C122 (violated)**: transactions that assert a balance are moved to the end of their day after the balances were computed, so
the page takes the balance of the wrong posting (here 1.00 instead of 0.70). -/
theorem C122_balance_violated : ¬ C122_Statement := by
  intro h
  cases hr : resolveTransactions sampleEnv dayHeap dayTxns [str "A", str "B"] with
  | error e =>
    have : (resolveTransactions sampleEnv dayHeap dayTxns [str "A", str "B"]).isOk = true := by decide +kernel
    rw [hr] at this; cases this
  | ok r =>
    obtain ⟨fin, sorted⟩ := r
    have h2 : ((resolveTransactions sampleEnv dayHeap dayTxns [str "A", str "B"]).toOption.map
        (fun r => (r.1.warnings, (r.1.books.postings (str "A")).map (fun p => (r.1.heap p).quantity.map (·.com))))) =
        some ([], [some sampleCom, some sampleCom]) := by decide +kernel
    have h3 : ((resolveTransactions sampleEnv dayHeap dayTxns [str "A", str "B"]).toOption.map
        (fun r => ((balanceAt (pageTxns (fun _ => []) r.1 r.2) ⟨str "A", str "A", sampleCom, none, none⟩ (86400 * 5)).int,
          (((acctPosts (pageTxns (fun _ => []) r.1 r.2) (str "A")).filter (fun v => decide (v.txn.posted ≤ 86400 * 5))).map (fun v : VPost => v.post.quantity.int)).sum))) =
        some (100, 70) := by decide +kernel
    rw [hr] at h2 h3
    have h2 : some (fin.warnings, (fin.books.postings (str "A")).map (fun p => (fin.heap p).quantity.map (·.com))) =
        some ([], [some sampleCom, some sampleCom]) := h2
    have h3 : some ((balanceAt (pageTxns (fun _ => []) fin sorted) ⟨str "A", str "A", sampleCom, none, none⟩ (86400 * 5)).int,
          (((acctPosts (pageTxns (fun _ => []) fin sorted) (str "A")).filter (fun v => decide (v.txn.posted ≤ 86400 * 5))).map (fun v : VPost => v.post.quantity.int)).sum) =
        some (100, 70) := h3
    simp only [Option.some.injEq, Prod.mk.injEq] at h2 h3
    have h1 := h (fun _ => []) sampleEnv dayHeap dayTxns _ fin sorted dayParsed (by decide) hr h2.1 ⟨str "A", str "A", sampleCom, none, none⟩ 5
      (by show str "A" ∈ _; decide) (by
        intro p hp q hq
        have hm : (fin.heap p).quantity.map (·.com) ∈ (fin.books.postings (str "A")).map (fun p => (fin.heap p).quantity.map (·.com)) :=
          List.mem_map.mpr ⟨p, hp, rfl⟩
        rw [h2.2, hq] at hm
        show q.com = sampleCom
        simpa using hm)
    rw [h3.1] at h1
    have h1 : (100 : Int) = _ := h1.trans h3.2
    exact absurd h1 (by decide)

/-! ### The order of an account's postings -/

/-- The account a posting names. -/
def owned (env : Env) (h : Heap) (a : Str) (p : PRef) : Bool := match accountOf env h p with | .ok x => decide (x = a) | .error _ => false

theorem owned_iff {env : Env} {h : Heap} {a : Str} {p : PRef} : owned env h a p = true ↔ accountOf env h p = .ok a := by
  unfold owned
  cases accountOf env h p with
  | error e => simp
  | ok x => simp

/-- Postings of one account and day are in the order in which they were registered. -/
def BookInOrder (date : PRef → Int) (own : Str → PRef → Bool) (done : List PRef) (b : Books) : Prop :=
  ∀ a d, (b.postings a).filter (fun p => decide (date p = d)) = done.filter (fun p => own a p && decide (date p = d))

theorem addPosting_day (date : PRef → Int) (l : List PRef) (p : PRef) (hs : SortedBy date l) (h : p ∉ l) (d : Int) :
    (addPosting date l p).filter (fun q => decide (date q = d)) =
      if date p = d then l.filter (fun q => decide (date q = d)) ++ [p] else l.filter (fun q => decide (date q = d)) := by
  obtain ⟨L, R, rfl, e, hL, hR⟩ := addPosting_new date l p hs h
  rw [e, List.filter_append, List.filter_append]
  by_cases hd : date p = d
  · rw [if_pos hd, List.filter_cons_of_pos (by simpa using hd)]
    have : R.filter (fun q => decide (date q = d)) = [] := by
      rw [List.filter_eq_nil_iff]
      intro q hq
      have := hR q hq
      simp; omega
    rw [this]; simp
  · rw [if_neg hd, List.filter_cons_of_neg (by simpa using hd)]

theorem BookInOrder.post {env : Env} {h : Heap} {done : List PRef} {b : Books} (hb : BInv env h done b)
    (ho : BookInOrder (fun q => (h q).posted) (owned env h) done b) (p : PRef) (hp : p ∉ done) (a : Str) (ha : accountOf env h p = .ok a) :
    BookInOrder (fun q => (h q).posted) (owned env h) (done ++ [p]) (b.post (fun q => (h q).posted) p a) := by
  intro x d
  have hn : p ∉ b.postings a := fun hm => hp ((hb.mem a p).mp hm).1
  rw [List.filter_append, ← ho x d]
  show (if x = a then addPosting (fun q => (h q).posted) (b.postings a) p else b.postings x).filter _ = _
  by_cases hx : x = a
  · subst hx
    rw [if_pos rfl, addPosting_day _ _ _ (hb.sorted x) hn]
    have := owned_iff.mpr ha
    by_cases hd : (h p).posted = d
    · rw [if_pos hd, List.filter_cons_of_pos (by simp [this, hd])]; rfl
    · rw [if_neg hd, List.filter_cons_of_neg (by simp [hd])]; simp
  · rw [if_neg hx]
    have : owned env h x p = false := by
      cases ho : owned env h x p with
      | false => rfl
      | true =>
        have := owned_iff.mp ho
        rw [ha] at this; injection this with this
        exact absurd this.symm hx
    rw [List.filter_cons_of_neg (by simp [this])]; simp

theorem assign_order {env : Env} {h : Heap} {done : List PRef} {b : Books} (hb : BInv env h done b) (ps : List PRef) (hn : (done ++ ps).Nodup)
    (ho : BookInOrder (fun q => (h q).posted) (owned env h) done b) {r} (hr : assignAccounts env h b ps = .ok r) :
    BookInOrder (fun q => (h q).posted) (owned env h) (done ++ ps) r.1 := by
  induction ps generalizing done b r with
  | nil =>
    simp only [assignAccounts, Except.ok.injEq] at hr; subst hr
    simpa using ho
  | cons p ps ih =>
    unfold assignAccounts at hr
    obtain ⟨a, ha, hr⟩ := bind_ok.mp hr
    obtain ⟨r', hr', hr⟩ := bind_ok.mp hr
    injection hr with hr; subst hr
    have hp : p ∉ done := by
      intro hm
      exact (List.nodup_append.mp hn).2.2 p hm p (by simp) rfl
    have := ih (done := done ++ [p]) (hb.post p hp a ha) (by simpa using hn) (ho.post hb p hp a ha) hr'
    simpa using this

theorem BookInOrder.congr {env : Env} {h h' : Heap} {done : List PRef} {b : Books} (hs : SameStatic h h')
    (ho : BookInOrder (fun q => (h q).posted) (owned env h) done b) : BookInOrder (fun q => (h' q).posted) (owned env h') done b := by
  have e1 : (fun p => (h' p).posted) = fun p => (h p).posted := by funext p; exact (hs p).1
  have e2 : owned env h' = owned env h := by funext a p; unfold owned accountOf; rw [(hs p).2.1]
  rw [e1, e2]; exact ho

theorem resolveTxn_books {env : Env} {st st' : LState} {t : Txn} (hr : resolveTxn env st t = .ok st') :
    ∃ r, assignAccounts env st.heap st.books t.postings = .ok r ∧ st'.books = r.1 := by
  unfold resolveTxn at hr
  obtain ⟨r, h1, hr⟩ := bind_ok.mp hr
  refine ⟨r, h1, ?_⟩
  dsimp only at hr
  split at hr
  · split at hr
    · injection hr with hr; rw [← hr]
    · cases hr
  · split at hr
    · injection hr with hr; rw [← hr]
    · obtain ⟨te, _, hr⟩ := bind_ok.mp hr
      split at hr
      · split at hr
        · injection hr with hr; rw [← hr]
        · cases hr
      · injection hr with hr; rw [← hr]

theorem resolveTxns_order {env : Env} : ∀ (txns : List Txn) {st st' : LState} {done : List PRef}, BInv env st.heap done st.books →
    (done ++ txns.flatMap (·.postings)).Nodup → BookInOrder (fun q => (st.heap q).posted) (owned env st.heap) done st.books → resolveTxns env st txns = .ok st' →
    BookInOrder (fun q => (st.heap q).posted) (owned env st.heap) (done ++ txns.flatMap (·.postings)) st'.books := by
  intro txns
  induction txns with
  | nil =>
    intro st st' done _ _ ho hr
    simp only [resolveTxns, Except.ok.injEq] at hr; subst hr
    simpa using ho
  | cons t ts ih =>
    intro st st' done hb hn ho hr
    unfold resolveTxns at hr
    obtain ⟨st1, hr1, hr⟩ := bind_ok.mp hr
    rw [List.flatMap_cons, ← List.append_assoc] at hn ⊢
    have hn1 : (done ++ t.postings).Nodup := (List.nodup_append.mp hn).1
    obtain ⟨ha, hb1, he⟩ := resolveTxn_ok hb hn1 hr1
    have hst := (he.static ha.effect_sc).1
    obtain ⟨r, hr1', e⟩ := resolveTxn_books hr1
    have ho1 := assign_order hb t.postings hn1 ho hr1'
    rw [← e] at ho1
    have := ih (hb1.congr hst) hn (ho1.congr hst) hr
    exact this.congr (fun p => ⟨(hst p).1.symm, (hst p).2.1.symm, (hst p).2.2.1.symm, (hst p).2.2.2.symm⟩)

/-- Two lists in date order with the same postings in the same order on every day are the same. -/
theorem sorted_days_unique {α : Type} (date : α → Int) : ∀ (n : Nat) (l l' : List α), l.length = n → l.Pairwise (fun p q => date p ≤ date q) →
    l'.Pairwise (fun p q => date p ≤ date q) → (∀ d, l.filter (fun p => decide (date p = d)) = l'.filter (fun p => decide (date p = d))) → l = l' := by
  intro n
  induction n with
  | zero =>
    intro l l' hn _ _ h
    have : l = [] := by cases l with | nil => rfl | cons => cases hn
    subst this
    cases l' with
    | nil => rfl
    | cons x l' =>
      have := h (date x)
      rw [List.filter_nil, List.filter_cons_of_pos (by simp)] at this
      cases this
  | succ n ih =>
    intro l l' hn hl hl' h
    cases l with
    | nil => cases hn
    | cons x l =>
      cases l' with
      | nil =>
        have := h (date x)
        rw [List.filter_nil, List.filter_cons_of_pos (by simp)] at this
        cases this
      | cons y l' =>
        obtain ⟨a1, a2⟩ := List.pairwise_cons.mp hl
        obtain ⟨b1, b2⟩ := List.pairwise_cons.mp hl'
        have hxy : date x = date y := by
          have m1 : x ∈ (y :: l').filter (fun p => decide (date p = date x)) := by
            rw [← h (date x)]; simp
          have m2 : y ∈ (x :: l).filter (fun p => decide (date p = date y)) := by
            rw [h (date y)]; simp
          have h1 : date y ≤ date x := by
            rcases List.mem_cons.mp (List.mem_filter.mp m1).1 with e | e
            · rw [e]
            · exact b1 x e
          have h2 : date x ≤ date y := by
            rcases List.mem_cons.mp (List.mem_filter.mp m2).1 with e | e
            · rw [e]
            · exact a1 y e
          omega
        have h0 := h (date x)
        rw [List.filter_cons_of_pos (by simp), List.filter_cons_of_pos (by simp [hxy])] at h0
        injection h0 with e1 e2
        subst e1
        congr 1
        refine ih l l' (by simpa using hn) a2 b2 ?_
        intro d
        by_cases hd : date x = d
        · subst hd; exact e2
        · have := h d
          rwa [List.filter_cons_of_neg (by simpa using hd), List.filter_cons_of_neg (by simpa using hd)] at this

/-- The transaction has a posting to the account. -/
def Touches (env : Env) (heap : Heap) (a : Str) (t : Txn) : Prop := ∃ p ∈ t.postings, env.find (heap p).accountName = .ok a

/-- The transaction asserts a balance. -/
def VAsserts (heap : Heap) (t : Txn) : Prop := ∃ p ∈ t.postings, (heap p).asserted = true

/-- Among the transactions of a day with postings to the account, those asserting a balance are written last. -/
def AssertsLast (env : Env) (heap : Heap) (a : Str) (txns : List Txn) : Prop :=
  txns.Pairwise (fun t u => t.posted = u.posted → Touches env heap a t → Touches env heap a u → VAsserts heap t → VAsserts heap u)

theorem filter_flatMap {α β : Type} (F : α → List β) (f : β → Bool) (l : List α) : (l.flatMap F).filter f = l.flatMap (fun x => (F x).filter f) := by
  induction l with
  | nil => rfl
  | cons x l ih => rw [List.flatMap_cons, List.filter_append, ih, List.flatMap_cons]

theorem flatMap_filter_of_nil {α β : Type} (F : α → List β) (f : α → Bool) (l : List α) (h : ∀ x ∈ l, f x = false → F x = []) :
    (l.filter f).flatMap F = l.flatMap F := by
  induction l with
  | nil => rfl
  | cons x l ih =>
    rw [List.flatMap_cons, ← ih (fun y hy => h y (List.mem_cons_of_mem _ hy))]
    cases hf : f x with
    | true => rw [List.filter_cons_of_pos hf, List.flatMap_cons]
    | false => rw [List.filter_cons_of_neg (by simp [hf]), h x List.mem_cons_self hf]; rfl

/-- On the page the postings of such an account are in the order of its running balance. -/
theorem page_order {env : Env} {heap : Heap} {txns : List Txn} {order : List Str} {fin : Loaded} {sorted : List Txn} (hp : Parsed heap txns)
    (hnd : order.Nodup) (h : resolveTransactions env heap txns order = .ok (fin, sorted)) (a : Str) (hal : AssertsLast env heap a txns) :
    (sorted.flatMap (·.postings)).filter (owned env heap a) = fin.books.postings a := by
  obtain ⟨st, h1, h2, _⟩ := load_parts h
  obtain ⟨c1, c2, c3, c4⟩ := C32_transactions_sorted env heap txns order fin sorted hp hnd h
  have g1 := (phase2 hp hnd h1 h2).1
  have hb := (phase1 hp h1).2.1
  have ho := resolveTxns_order txns (st := ⟨heap, Books.empty⟩) (done := []) (BInv.empty env heap) (by simpa using hp.nodup)
    (by intro x d; rfl) h1
  rw [List.nil_append] at ho
  have hdate : ∀ t ∈ sorted, ∀ p ∈ t.postings, (heap p).posted = t.posted := fun t ht => hp.date t (c1.mem_iff.mp ht)
  refine sorted_days_unique (fun p => (heap p).posted) _ _ _ rfl ?_ ?_ ?_
  · apply List.Pairwise.filter
    have : ∀ l : List Txn, l.Pairwise (fun t u => t.posted ≤ u.posted) → (∀ t ∈ l, ∀ p ∈ t.postings, (heap p).posted = t.posted) →
        (l.flatMap (·.postings)).Pairwise (fun p q => (heap p).posted ≤ (heap q).posted) := by
      intro l
      induction l with
      | nil => intro _ _; exact .nil
      | cons t l ih =>
        intro hl hd
        obtain ⟨l1, l2⟩ := List.pairwise_cons.mp hl
        rw [List.flatMap_cons, List.pairwise_append]
        refine ⟨?_, ih l2 (fun u hu => hd u (List.mem_cons_of_mem _ hu)), ?_⟩
        · apply List.pairwise_of_forall_mem_list
          intro p hpm q hqm
          rw [hd t List.mem_cons_self p hpm, hd t List.mem_cons_self q hqm]
        · intro p hpm q hqm
          obtain ⟨u, hu, hqm⟩ := List.mem_flatMap.mp hqm
          rw [hd t List.mem_cons_self p hpm, hd u (List.mem_cons_of_mem _ hu) q hqm]
          exact l1 u hu
    exact this sorted c2 hdate
  · rw [g1]; exact hb.sorted a
  · intro d
    rw [g1, ho a d]
    -- both sides are lists over transactions of day d that touch the account
    let touch : Txn → Bool := fun t => t.postings.any (owned env heap a)
    let F : Txn → List PRef := fun t => t.postings.filter (owned env heap a)
    let day : Txn → Bool := fun t => decide (t.posted = d) && touch t
    have hday : ∀ l : List Txn, (∀ t ∈ l, ∀ p ∈ t.postings, (heap p).posted = t.posted) →
        (l.flatMap (·.postings)).filter (fun p => owned env heap a p && decide ((heap p).posted = d)) = (l.filter day).flatMap F := by
      intro l hl
      have e : ∀ t ∈ l, t.postings.filter (fun p => owned env heap a p && decide ((heap p).posted = d)) = if t.posted = d then F t else [] := by
        intro t ht
        by_cases hd : t.posted = d
        · rw [if_pos hd]
          apply List.filter_congr
          intro p hpm
          simp [hl t ht p hpm, hd]
        · rw [if_neg hd, List.filter_eq_nil_iff]
          intro p hpm
          simp [hl t ht p hpm, hd]
      have hF : ∀ t, day t = true → (if t.posted = d then F t else []) = F t := by
        intro t ht
        have ht : (decide (t.posted = d) && touch t) = true := ht
        simp only [Bool.and_eq_true, decide_eq_true_eq] at ht
        rw [if_pos ht.1]
      have e2 : (l.filter day).flatMap F = (l.filter day).flatMap (fun t => if t.posted = d then F t else []) := by
        have : ∀ l' : List Txn, (∀ t ∈ l', day t = true) → l'.flatMap F = l'.flatMap (fun t => if t.posted = d then F t else []) := by
          intro l'
          induction l' with
          | nil => intro _; rfl
          | cons t l' ih =>
            intro hl'
            rw [List.flatMap_cons, List.flatMap_cons, ih (fun u hu => hl' u (List.mem_cons_of_mem _ hu)), hF t (hl' t List.mem_cons_self)]
        exact this _ (fun t ht => (List.mem_filter.mp ht).2)
      rw [filter_flatMap, e2, flatMap_filter_of_nil]
      · clear e2
        induction l with
        | nil => rfl
        | cons t l ih =>
          rw [List.flatMap_cons, List.flatMap_cons, e t List.mem_cons_self, ih (fun u hu => hl u (List.mem_cons_of_mem _ hu))
            (fun u hu => e u (List.mem_cons_of_mem _ hu))]
      · intro t _ hf
        have hf : (decide (t.posted = d) && touch t) = false := hf
        rw [Bool.and_eq_false_iff] at hf
        rcases hf with hf | hf
        · rw [if_neg (by simpa using hf)]
        · split
          · show t.postings.filter (owned env heap a) = []
            rw [List.filter_eq_nil_iff]
            intro p hpm
            have := List.any_eq_false.mp hf p hpm
            simpa using this
          · rfl
    have e1 : ((sorted.flatMap (·.postings)).filter (owned env heap a)).filter (fun p => decide ((heap p).posted = d)) =
        (sorted.flatMap (·.postings)).filter (fun p => owned env heap a p && decide ((heap p).posted = d)) := by
      rw [List.filter_filter]
      apply List.filter_congr
      intro p _
      rw [Bool.and_comm]
    rw [e1, hday sorted hdate]
    show _ = (txns.flatMap (·.postings)).filter (fun p => owned env heap a p && decide ((heap p).posted = d))
    rw [hday txns hp.date]
    congr 1
    -- the transactions themselves
    let asserting : Txn → Bool := fun t => t.postings.any (fun p => (heap p).asserted)
    have has : ∀ t, asserting t = true ↔ VAsserts heap t := by
      intro t
      show t.postings.any (fun p => (heap p).asserted) = true ↔ _
      rw [List.any_eq_true]; exact Iff.rfl
    have htc : ∀ t, touch t = true ↔ Touches env heap a t := by
      intro t
      show t.postings.any (owned env heap a) = true ↔ _
      rw [List.any_eq_true]
      constructor
      · rintro ⟨p, h1, h2⟩; exact ⟨p, h1, owned_iff.mp h2⟩
      · rintro ⟨p, h1, h2⟩; exact ⟨p, h1, owned_iff.mpr h2⟩
    have hpair : ∀ l : List Txn, l.Pairwise (fun t u => t.posted = u.posted → Touches env heap a t → Touches env heap a u → VAsserts heap t → VAsserts heap u) →
        (l.filter day).Pairwise (fun t u => (if asserting t = true then (1 : Int) else 0) ≤ if asserting u = true then 1 else 0) := by
      intro l hl
      rw [List.pairwise_filter]
      refine hl.imp ?_
      intro t u hh ht hu
      have ht : (decide (t.posted = d) && touch t) = true := ht
      have hu : (decide (u.posted = d) && touch u) = true := hu
      simp only [Bool.and_eq_true, decide_eq_true_eq] at ht hu
      by_cases h1 : asserting t = true
      · rw [if_pos h1, if_pos ((has u).mpr (hh (by rw [ht.1, hu.1]) ((htc t).mp ht.2) ((htc u).mp hu.2) ((has t).mp h1)))]
      · rw [if_neg h1]; split <;> decide
    refine sorted_days_unique (fun t => if asserting t = true then (1 : Int) else 0) _ _ _ rfl (hpair sorted ?_) (hpair txns hal) ?_
    · refine c3.imp ?_
      intro t u hh hd _ _ hx
      exact hh hd hx
    · intro k
      have hk : ∀ b : Bool, (sorted.filter day).filter (fun t => asserting t == b) = (txns.filter day).filter (fun t => asserting t == b) := by
        intro b
        have := congrArg (List.filter touch) (c4 d b)
        rw [List.filter_filter, List.filter_filter] at this
        rw [List.filter_filter, List.filter_filter]
        have ee : (fun t => (asserting t == b) && day t) = fun t => touch t && (decide (t.posted = d) && (asserting t == b)) := by
          funext t
          show ((asserting t == b) && (decide (t.posted = d) && touch t)) = _
          cases touch t <;> cases (asserting t == b) <;> simp
        rw [ee]; exact this
      by_cases k1 : k = 1
      · subst k1
        have : (fun t => decide ((if asserting t = true then (1 : Int) else 0) = 1)) = fun t => asserting t == true := by
          funext t; cases asserting t <;> rfl
        rw [this]; exact hk true
      · by_cases k0 : k = 0
        · subst k0
          have : (fun t => decide ((if asserting t = true then (1 : Int) else 0) = 0)) = fun t => asserting t == false := by
            funext t; cases asserting t <;> rfl
          rw [this]; exact hk false
        · have : (fun t => decide ((if asserting t = true then (1 : Int) else 0) = k)) = fun _ => false := by
            funext t
            rw [decide_eq_false_iff_not]
            cases asserting t
            · rw [if_neg (by decide)]; omega
            · rw [if_pos rfl]; omega
          rw [this]; simp

/-- Date and contents of a posting on the page. -/
def pageKey (v : VPost) : Int × WPost := (v.txn.posted, v.post)

theorem acctPosts_key (ts : List WTxn) (a : Str) :
    (acctPosts ts a).map pageKey = (ts.flatMap (fun t => t.postings.map (fun p => (t.posted, p)))).filter (fun e => decide (e.2.account = a)) := by
  unfold acctPosts
  have : (fun v : VPost => decide (v.post.account = a)) = (fun e : Int × WPost => decide (e.2.account = a)) ∘ pageKey := rfl
  rw [this, ← List.filter_map, List.map_flatMap]
  congr 1
  congr 1
  funext t
  unfold txnPosts
  rw [List.map_map]
  show t.postings.zipIdx.map (fun e => (t.posted, e.1)) = _
  conv_rhs => rw [← List.zipIdx_map_fst 0 t.postings, List.map_map]
  rfl

/-- The page's postings of an account, in the order of its running balance. -/
theorem page_postings {env : Env} {heap : Heap} {txns : List Txn} {order : List Str} {fin : Loaded} {sorted : List Txn} (loc : Txn → Str) (hp : Parsed heap txns)
    (hnd : order.Nodup) (h : resolveTransactions env heap txns order = .ok (fin, sorted)) (a : Str) (hal : AssertsLast env heap a txns) :
    (acctPosts (pageTxns loc fin sorted) a).map pageKey =
      (fin.books.postings a).map (fun p => (86400 * (heap p).posted, wpostOf (outPost fin p))) := by
  obtain ⟨st, h1, h2, _⟩ := load_parts h
  obtain ⟨c1, _⟩ := C32_transactions_sorted env heap txns order fin sorted hp hnd h
  have g2 := (phase2 hp hnd h1 h2).2.1
  have hb := (phase1 hp h1).2.1
  have hmem : ∀ p ∈ sorted.flatMap (·.postings), p ∈ txns.flatMap (·.postings) := fun p hm => (c1.flatMap_right _).mem_iff.mp hm
  have hown : ∀ p ∈ sorted.flatMap (·.postings), decide ((wpostOf (outPost fin p)).account = a) = owned env heap a p := by
    intro p hm
    obtain ⟨x, hx1, hx2⟩ := hb.account p (by simpa using hmem p hm)
    have : (wpostOf (outPost fin p)).account = x := by
      show (fin.books.account p).getD [] = x
      rw [g2, hx2]; rfl
    rw [this]
    unfold owned
    rw [hx1]
  rw [← page_order hp hnd h a hal, acctPosts_key]
  have e1 : (pageTxns loc fin sorted).flatMap (fun t => t.postings.map (fun p => (t.posted, p))) =
      (sorted.flatMap (·.postings)).map (fun p => (86400 * (heap p).posted, wpostOf (outPost fin p))) := by
    unfold pageTxns
    rw [List.flatMap_map, List.map_flatMap]
    have : ∀ l : List Txn, (∀ t ∈ l, t ∈ txns) → l.flatMap (fun t => (wtxnOf (outTxn loc fin t)).postings.map (fun p => ((wtxnOf (outTxn loc fin t)).posted, p))) =
        l.flatMap (fun t => t.postings.map (fun p => (86400 * (heap p).posted, wpostOf (outPost fin p)))) := by
      intro l
      induction l with
      | nil => intro _; rfl
      | cons t l ih =>
        intro hl
        rw [List.flatMap_cons, List.flatMap_cons, ih (fun u hu => hl u (List.mem_cons_of_mem _ hu))]
        congr 1
        show ((t.postings.map (outPost fin)).map wpostOf).map (fun p => (86400 * t.posted, p)) = _
        rw [List.map_map, List.map_map]
        apply List.map_congr_left
        intro p hpm
        rw [hp.date t (hl t List.mem_cons_self) p hpm]
        rfl
    exact this sorted (fun t ht => c1.mem_iff.mp ht)
  rw [e1, List.filter_map]
  congr 1
  apply List.filter_congr
  intro p hm
  exact hown p hm

theorem find_last {α : Type} (f : α → Bool) (X Y : List α) (hX : ∀ x ∈ X, f x = true) (hY : ∀ y ∈ Y, f y = false) :
    (X ++ Y).reverse.find? f = X.getLast? := by
  rw [List.reverse_append, List.find?_append]
  have h1 : Y.reverse.find? f = none := by
    rw [List.find?_eq_none]
    intro y hy
    rw [hY y (List.mem_reverse.mp hy)]; decide
  rw [h1, Option.none_or]
  cases X using List.reverseRec with
  | nil => rfl
  | append_singleton X x =>
    rw [List.reverse_append]
    show List.find? f (x :: X.reverse) = _
    rw [List.find?_cons_of_pos (hX x (by simp))]
    simp

/-- **C122**: for an account whose postings and asserted balances are in its commodity, with all assertions right and the asserting
transactions written last on their day, the page's balance at the end of a day is the sum of the quantities up to that day.
(Missing: the other orders of the transactions of a day, and wrong assertions, which the page shows as balances.) -/
theorem C122_balance_partial (loc : Txn → Str) (env : Env) (heap : Heap) (txns : List Txn) (order : List Str) (fin : Loaded) (sorted : List Txn)
    (hp : Parsed heap txns) (hnd : order.Nodup) (h : resolveTransactions env heap txns order = .ok (fin, sorted)) (a : WAcct) (d : Int)
    (ha : a.fullName ∈ order) (hw : ∀ p ∈ fin.books.postings a.fullName, p ∉ fin.warnings)
    (hq : ∀ p ∈ fin.books.postings a.fullName, ∀ q, (fin.heap p).quantity = some q → q.com = env.comOf a.fullName)
    (hb : ∀ p ∈ fin.books.postings a.fullName, ∀ b, (heap p).balance = some b → b.com = env.comOf a.fullName)
    (hal : AssertsLast env heap a.fullName txns) :
    (balanceAt (pageTxns loc fin sorted) a (86400 * d)).int =
      (((acctPosts (pageTxns loc fin sorted) a.fullName).filter (fun v => decide (v.txn.posted ≤ 86400 * d))).map (fun v : VPost => v.post.quantity.int)).sum := by
  have hk := page_postings loc hp hnd h a.fullName hal
  obtain ⟨s1, _, s3, _⟩ := C29_running_balances env heap txns order fin sorted hp hnd h a.fullName ha hq
  obtain ⟨t1, t2⟩ := C30_balance_assertions env heap txns order fin sorted hp hnd h
  obtain ⟨t2, _⟩ := t2 a.fullName ha hq
  generalize hP : acctPosts (pageTxns loc fin sorted) a.fullName = P at hk
  generalize hL : fin.books.postings a.fullName = L at *
  -- the split of the account's postings at the day
  have hsplit := sorted_split (fun p => (heap p).posted) (d + 1) L s1
  let X := L.filter (fun p => decide ((heap p).posted ≤ d))
  let Y := L.filter (fun p => decide (d < (heap p).posted))
  have hXY : L = X ++ Y := by
    rw [hsplit]
    have e1 : L.filter (fun p => decide ((heap p).posted < d + 1)) = X := by
      apply List.filter_congr; intro p _; rw [decide_eq_decide]; omega
    have e2 : Y = L.filter (fun p => decide ((heap p).posted = d + 1)) ++ L.filter (fun p => decide (d + 1 < (heap p).posted)) := by
      have := sorted_split (fun p => (heap p).posted) (d + 1) Y (s1.filter _)
      rw [this]
      have f1 : Y.filter (fun p => decide ((heap p).posted < d + 1)) = [] := by
        rw [List.filter_eq_nil_iff]
        intro p hp
        have := (List.mem_filter.mp hp).2
        simp only [decide_eq_true_eq] at this ⊢
        omega
      have f2 : Y.filter (fun p => decide ((heap p).posted = d + 1)) = L.filter (fun p => decide ((heap p).posted = d + 1)) := by
        rw [List.filter_filter]
        apply List.filter_congr; intro p _
        rw [← Bool.decide_and, decide_eq_decide]; omega
      have f3 : Y.filter (fun p => decide (d + 1 < (heap p).posted)) = L.filter (fun p => decide (d + 1 < (heap p).posted)) := by
        rw [List.filter_filter]
        apply List.filter_congr; intro p _
        rw [← Bool.decide_and, decide_eq_decide]; omega
      rw [f1, f2, f3]; rfl
    rw [e1, e2]
  let g : PRef → Int × WPost := fun p => (86400 * (heap p).posted, wpostOf (outPost fin p))
  have hquant : ∀ p, (wpostOf (outPost fin p)).quantity.int = qint fin.heap p := by
    intro p
    show ((fin.heap p).quantity.getD _).int = qint fin.heap p
    unfold qint
    cases (fin.heap p).quantity <;> rfl
  -- the right side
  have hr : ((P.filter (fun v => decide (v.txn.posted ≤ 86400 * d))).map (fun v : VPost => v.post.quantity.int)).sum = total (quantitiesOf fin.heap X) := by
    rw [quantitiesOf_sum]
    have e1 : (P.filter (fun v => decide (v.txn.posted ≤ 86400 * d))).map (fun v : VPost => v.post.quantity.int) =
        ((P.map pageKey).filter (fun e => decide (e.1 ≤ 86400 * d))).map (fun e => e.2.quantity.int) := by
      rw [List.filter_map, List.map_map]; rfl
    rw [e1, hk, List.filter_map, List.map_map]
    congr 1
    have e2 : L.filter ((fun e : Int × WPost => decide (e.1 ≤ 86400 * d)) ∘ g) = X := by
      apply List.filter_congr
      intro p _
      show decide (86400 * (heap p).posted ≤ 86400 * d) = _
      rw [decide_eq_decide]; omega
    show (L.filter ((fun e : Int × WPost => decide (e.1 ≤ 86400 * d)) ∘ g)).map _ = _
    rw [e2]
    apply List.map_congr_left
    intro p _
    exact hquant p
  rw [hr]
  -- the left side
  have hf : ((acctPosts (pageTxns loc fin sorted) a.fullName).reverse.find? (fun v => decide (v.txn.posted ≤ 86400 * d))).map pageKey = (X.getLast?).map g := by
    rw [hP]
    have e1 : (P.reverse.find? (fun v => decide (v.txn.posted ≤ 86400 * d))).map pageKey = (P.map pageKey).reverse.find? (fun e => decide (e.1 ≤ 86400 * d)) := by
      rw [← List.map_reverse, List.find?_map]; rfl
    rw [e1, hk, hXY, List.map_append]
    have := find_last (fun e : Int × WPost => decide (e.1 ≤ 86400 * d)) (X.map g) (Y.map g) (by
        intro e he
        obtain ⟨p, hpm, rfl⟩ := List.mem_map.mp he
        have := (List.mem_filter.mp hpm).2
        simp only [decide_eq_true_eq] at this
        show decide (86400 * (heap p).posted ≤ 86400 * d) = true
        rw [decide_eq_true_eq]; omega) (by
        intro e he
        obtain ⟨p, hpm, rfl⟩ := List.mem_map.mp he
        have := (List.mem_filter.mp hpm).2
        simp only [decide_eq_true_eq] at this
        show decide (86400 * (heap p).posted ≤ 86400 * d) = false
        rw [decide_eq_false_iff_not]; omega)
    show (X.map g ++ Y.map g).reverse.find? _ = _
    rw [this, List.getLast?_map]
  unfold balanceAt
  cases hX : X.getLast? with
  | none =>
    rw [hX] at hf
    have hnil : X = [] := List.getLast?_eq_none_iff.mp hX
    cases hfd : (acctPosts (pageTxns loc fin sorted) a.fullName).reverse.find? (fun v => decide (v.txn.posted ≤ 86400 * d)) with
    | some v => rw [hfd] at hf; cases hf
    | none =>
      rw [hnil]
      rfl
  | some p =>
    rw [hX] at hf
    cases hfd : (acctPosts (pageTxns loc fin sorted) a.fullName).reverse.find? (fun v => decide (v.txn.posted ≤ 86400 * d)) with
    | none => rw [hfd] at hf; cases hf
    | some v =>
      rw [hfd] at hf
      simp only [Option.map_some, Option.some.injEq] at hf
      have hv : v.post = wpostOf (outPost fin p) := congrArg Prod.snd hf
      dsimp only
      rw [hv]
      obtain ⟨X', hX'⟩ := List.getLast?_eq_some_iff.mp hX
      have hLs : L = X' ++ p :: Y := by rw [hXY, hX', List.append_assoc]; rfl
      have hpL : p ∈ L := by rw [hLs]; simp
      have hbal : ∃ b, (fin.heap p).balance = some b ∧ b.int = total (quantitiesOf fin.heap X) := by
        rw [hX']
        cases hass : (heap p).asserted with
        | false => exact ⟨_, s3 X' p Y hLs hass, rfl⟩
        | true =>
          have hs := hp.asserted p
          rw [hass] at hs
          obtain ⟨b, hbb⟩ := Option.isSome_iff_exists.mp hs.symm
          refine ⟨b, (t1 p b hass hbb).1, ?_⟩
          by_contra hne
          exact hw p hpL ((t2 X' p Y hLs b hbb (hb p hpL b hbb)).mpr hne)
      obtain ⟨b, b1, b2⟩ := hbal
      show (((fin.heap p).balance).getD _).int = _
      rw [b1]
      exact b2

/-- The same day with the (right) asserting transaction written last. -/
def lateHeap : Heap := dayHeap.set 0 ⟨5, str "A", some ⟨100, sampleCom⟩, some ⟨70, sampleCom⟩, true, []⟩

def lateTxns : List Txn := [⟨5, [], str "y", [], [2, 3]⟩, ⟨5, [], str "x", [], [0, 1]⟩]

/-- Non-vacuity. -/
example : AssertsLast sampleEnv lateHeap (str "A") lateTxns := by
  unfold AssertsLast lateTxns
  rw [List.pairwise_pair]
  rintro _ _ _ ⟨p, hp, h⟩
  exfalso
  revert h
  rcases List.mem_cons.mp hp with rfl | hp
  · decide
  · rw [List.mem_singleton] at hp; subst hp; decide

example : (resolveTransactions sampleEnv lateHeap lateTxns [str "A", str "B"]).toOption.map
    (fun r => (r.1.warnings, (balanceAt (pageTxns (fun _ => []) r.1 r.2) ⟨str "A", str "A", sampleCom, none, none⟩ (86400 * 5)).int,
      (balanceAt (pageTxns (fun _ => []) r.1 r.2) ⟨str "A", str "A", sampleCom, none, none⟩ (86400 * 4)).int)) = some ([], 70, 0) := by decide +kernel

end Verif
