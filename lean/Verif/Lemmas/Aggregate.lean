import Verif.Props.Register
/-! Lemmas about the aggregated register: period totals, propagation up the account tree. -/
namespace Verif

variable {names : List Str} {L : Links}

/-- The period of a posting (0 when not reducing by time). -/
def periodOf (red : Reducers) (v : View) (p : PRef) : Int := match red.time with | none => 0 | some r => r (v.date p)

/-- The key of a posting: its category when reducing by category. -/
def keyOf (red : Reducers) (p : PRef) : Option Str := red.category.map (fun c => c p)

/-- The period/key of a posting. -/
def FallsIn (red : Reducers) (v : View) (t : Int) (k : Option Str) (p : PRef) : Prop := periodOf red v p = t ∧ keyOf red p = k

instance (red : Reducers) (v : View) (t : Int) (k : Option Str) (p : PRef) : Decidable (FallsIn red v t k p) :=
  inferInstanceAs (Decidable (_ ∧ _))

/-- Sum of the quantities of the postings of `ps` falling into period `t` and category `k`. -/
def amountAt (red : Reducers) (v : View) (ps : List PRef) (t : Int) (k : Option Str) : Int :=
  total ((ps.filter (fun p => decide (FallsIn red v t k p))).map v.qty)

/-- Some posting falls into the period and category. -/
def occursAt (red : Reducers) (v : View) (ps : List PRef) (t : Int) (k : Option Str) : Prop := ∃ p ∈ ps, FallsIn red v t k p

theorem amountAt_append (red : Reducers) (v : View) (a b : List PRef) (t : Int) (k : Option Str) :
    amountAt red v (a ++ b) t k = amountAt red v a t k + amountAt red v b t k := by
  simp [amountAt, total]

theorem amountAt_single (red : Reducers) (v : View) (p : PRef) (t : Int) (k : Option Str) :
    amountAt red v [p] t k = if periodOf red v p = t ∧ keyOf red p = k then (v.qty p).int else 0 := by
  by_cases h : periodOf red v p = t ∧ keyOf red p = k
  · have : FallsIn red v t k p := h
    simp [amountAt, total, this, h]
  · have h' : ¬ FallsIn red v t k p := h
    simp only [amountAt, total, List.filter_cons, h', decide_false, Bool.false_eq_true, if_false, List.filter_nil, List.map_nil, List.sum_nil, if_neg h]

/-- A timeline showing the numbers `V` at the periods and keys `H`. -/
structure Rep (c : Com) (red : Reducers) (V : Int → Option Str → Int) (H : Int → Option Str → Prop) (ts : TS) : Prop where
  ok : TSOK c red.category.isSome ts
  red : RedOK red ts
  val : ∀ t k, ts.val t k = V t k
  has : ∀ t k, ts.has t k ↔ H t k

theorem Rep.congr {c : Com} {red : Reducers} {V V' : Int → Option Str → Int} {H H' : Int → Option Str → Prop} {ts : TS}
    (h : Rep c red V H ts) (hV : ∀ t k, V t k = V' t k) (hH : ∀ t k, H t k ↔ H' t k) : Rep c red V' H' ts :=
  ⟨h.ok, h.red, fun t k => (h.val t k).trans (hV t k), fun t k => (h.has t k).trans (hH t k)⟩

theorem TTOK.key_exists {c : Com} {cat : Bool} {x : TT} (h : TTOK c cat x) : ∃ k, k ∈ x.keys := by
  have hne : x.vals ≠ [] := by
    cases cat with
    | true => exact (h.cats rfl).1
    | false => intro h0; have := h.single rfl; rw [h0] at this; simp at this
  obtain ⟨e, l, he⟩ := List.exists_cons_of_ne_nil hne
  exact ⟨e.1, by unfold TT.keys; rw [he]; simp⟩

theorem TSOK.mem_times {c : Com} {cat : Bool} {ts : TS} (h : TSOK c cat ts) (t : Int) : t ∈ ts.times ↔ ∃ k, ts.has t k := by
  constructor
  · intro ht
    obtain ⟨x, hx, rfl⟩ := List.mem_map.mp ht
    obtain ⟨k, hk⟩ := (h.ok x hx).key_exists
    exact ⟨k, x, hx, rfl, hk⟩
  · rintro ⟨k, x, hx, rfl, _⟩
    exact List.mem_map.mpr ⟨x, hx, rfl⟩

/-! ### Adding postings -/

theorem addQty_eq {c : Com} {cat : Bool} {x : TT} (conv : Conv) (hx : TTOK c cat x) (k : Option Str) (q : Amount) (hq : q.com = c) (t : Int) :
    x.addQty conv k q = .ok (x.addIn conv false ⟨t, [(k, q)]⟩) := by
  unfold TT.addQty TT.addIn
  simp only [List.foldl_cons, List.foldl_nil, addEntry]
  cases hg : getKey x.vals k with
  | none => simp
  | some amt =>
    have hac : amt.com = c := hx.vals.com _ (getKey_mem x.vals k amt hg)
    simp only [Bool.false_eq_true, if_false]
    rw [addIn_same conv amt q (by rw [hac, hq]), addInState_same conv amt q (by rw [hac, hq])]
    rfl

theorem fresh_ok (red : Reducers) (p : PRef) (q : Amount) (t : Int) : TTOK q.com red.category.isSome ⟨t, [(keyOf red p, q)]⟩ := by
  refine ⟨⟨by simp, by simp⟩, ?_, ?_⟩
  · intro h
    refine ⟨by simp, ?_⟩
    obtain ⟨f, hf⟩ := Option.isSome_iff_exists.mp h
    simp [keyOf, hf]
  · intro h
    have : red.category = none := by simpa using h
    simp [keyOf, this]

theorem add_spec {c : Com} {red : Reducers} {V : Int → Option Str → Int} {H : Int → Option Str → Prop} (conv : Conv) (v : View) (ts : TS) (p : PRef)
    (h : Rep c red V H ts) (hq : (v.qty p).com = c) (hle : ∀ x ∈ ts, x.time ≤ periodOf red v p) :
    ∃ ts', TS.add conv red v ts p = .ok ts' ∧
      Rep c red (fun t k => V t k + amountAt red v [p] t k) (fun t k => H t k ∨ FallsIn red v t k p) ts' ∧
      (∀ x ∈ ts', x.time ≤ periodOf red v p) := by
  have hfresh : TTOK c red.category.isSome ⟨periodOf red v p, [(keyOf red p, v.qty p)]⟩ := by rw [← hq]; exact fresh_ok red p (v.qty p) _
  have hz : red.time = none → periodOf red v p = 0 := by intro h0; simp [periodOf, h0]
  have hfv : ∀ k, TT.val ⟨periodOf red v p, [(keyOf red p, v.qty p)]⟩ k = if keyOf red p = k then (v.qty p).int else 0 := by
    intro k; unfold TT.val keyVal; simp only [getKey_cons, getKey_nil]; split <;> simp
  have hfk : ∀ k, k ∈ TT.keys ⟨periodOf red v p, [(keyOf red p, v.qty p)]⟩ ↔ keyOf red p = k := by
    intro k; simp [TT.keys, eq_comm]
  have hunf : TS.add conv red v ts p =
      match ts.getLast? with
      | none => .ok [⟨periodOf red v p, [(keyOf red p, v.qty p)]⟩]
      | some cur =>
        if cur.time = periodOf red v p then (cur.addQty conv (keyOf red p) (v.qty p)).bind fun cur => .ok (ts.dropLast ++ [cur])
        else .ok (ts ++ [⟨periodOf red v p, [(keyOf red p, v.qty p)]⟩]) := rfl
  have hnew : (∀ x ∈ ts, x.time < periodOf red v p) →
      Rep c red (fun t k => V t k + amountAt red v [p] t k) (fun t k => H t k ∨ FallsIn red v t k p)
        (ts ++ [⟨periodOf red v p, [(keyOf red p, v.qty p)]⟩]) ∧
      (∀ x ∈ ts ++ [⟨periodOf red v p, [(keyOf red p, v.qty p)]⟩], x.time ≤ periodOf red v p) := by
    intro hlt
    refine ⟨⟨⟨?_, ?_⟩, ⟨?_⟩, ?_, ?_⟩, ?_⟩
    · rw [List.pairwise_append]
      exact ⟨h.ok.sorted, by simp, fun a ha b hb => by simp at hb; rw [hb]; exact hlt a ha⟩
    · intro x hx
      rcases List.mem_append.mp hx with hx | hx
      · exact h.ok.ok x hx
      · simp at hx; rw [hx]; exact hfresh
    · intro h0 x hx
      rcases List.mem_append.mp hx with hx | hx
      · exact h.red.zero h0 x hx
      · simp at hx; rw [hx]; exact hz h0
    · intro t k
      rw [TS.val_append, h.val, TS.val_cons, TS.val_nil, hfv, amountAt_single]
      by_cases h1 : periodOf red v p = t <;> by_cases h2 : keyOf red p = k <;> simp [h1, h2]
    · intro t k
      rw [TS.has_append, h.has, TS.has_cons, TS.has_nil, hfk]
      simp [FallsIn]
    · intro x hx
      rcases List.mem_append.mp hx with hx | hx
      · exact le_of_lt (hlt x hx)
      · simp at hx; rw [hx]
  rw [hunf]
  cases hl : ts.getLast? with
  | none =>
    have : ts = [] := by simpa using hl
    subst this
    obtain ⟨a, b⟩ := hnew (by simp)
    exact ⟨_, rfl, a, b⟩
  | some cur =>
    obtain ⟨init, rfl⟩ : ∃ init, ts = init ++ [cur] := by
      have := List.getLast?_eq_some_iff.mp hl; exact this
    have hcur := h.ok.ok cur (by simp)
    obtain ⟨hs1, _, hs3⟩ := List.pairwise_append.mp h.ok.sorted
    have hinit : ∀ x ∈ init, x.time < cur.time := fun x hx => hs3 x hx cur (by simp)
    simp only
    by_cases he : cur.time = periodOf red v p
    · rw [if_pos he, addQty_eq conv hcur _ _ hq (periodOf red v p)]
      simp only [Except.bind, List.dropLast_concat]
      obtain ⟨g1, g2, g3, g4⟩ := hcur.addIn (ko := false) conv hfresh
      generalize hc' : TT.addIn conv false cur ⟨periodOf red v p, [(keyOf red p, v.qty p)]⟩ = cur' at *
      refine ⟨_, rfl, ⟨⟨?_, ?_⟩, ⟨?_⟩, ?_, ?_⟩, ?_⟩
      · rw [List.pairwise_append]
        exact ⟨hs1, by simp, fun a ha b hb => by simp at hb; rw [hb, g2]; exact hinit a ha⟩
      · intro x hx
        rcases List.mem_append.mp hx with hx | hx
        · exact h.ok.ok x (by simp [hx])
        · simp at hx; rw [hx]; exact g1
      · intro h0 x hx
        rcases List.mem_append.mp hx with hx | hx
        · exact h.red.zero h0 x (by simp [hx])
        · simp at hx; rw [hx, g2]; exact h.red.zero h0 cur (by simp)
      · intro t k
        rw [← h.val t k, TS.val_append, TS.val_append, TS.val_cons, TS.val_cons, TS.val_nil, amountAt_single, g2, g4, hfv, he]
        by_cases h1 : periodOf red v p = t <;> by_cases h2 : keyOf red p = k <;> simp [h1, h2] <;> ring
      · intro t k
        rw [← h.has t k, TS.has_append, TS.has_append, TS.has_cons, TS.has_cons, g2, g3, he, hfk]
        simp only [TS.has_nil, or_false, FallsIn]
        tauto
      · intro x hx
        rcases List.mem_append.mp hx with hx | hx
        · exact hle x (by simp [hx])
        · simp at hx; rw [hx, g2, he]
    · rw [if_neg he]
      obtain ⟨a, b⟩ := hnew (by
        intro x hx
        have hcl := hle cur (by simp)
        rcases List.mem_append.mp hx with hx | hx
        · have := hinit x hx; omega
        · simp at hx; rw [hx]; omega)
      exact ⟨_, rfl, a, b⟩

theorem addAll_spec {c : Com} {red : Reducers} (conv : Conv) (v : View) (ps : List PRef) :
    ∀ (ts : TS) (V : Int → Option Str → Int) (H : Int → Option Str → Prop), Rep c red V H ts → (∀ p ∈ ps, (v.qty p).com = c) →
    ps.Pairwise (fun p q => periodOf red v p ≤ periodOf red v q) → (∀ p ∈ ps, ∀ x ∈ ts, x.time ≤ periodOf red v p) →
    ∃ ts', TS.addAll conv red v ts ps = .ok ts' ∧ Rep c red (fun t k => V t k + amountAt red v ps t k) (fun t k => H t k ∨ occursAt red v ps t k) ts' := by
  induction ps with
  | nil =>
    intro ts V H h _ _ _
    exact ⟨ts, rfl, h.congr (by simp [amountAt, total]) (by simp [occursAt])⟩
  | cons p ps ih =>
    intro ts V H h hq hs hle
    obtain ⟨hs1, hs2⟩ := List.pairwise_cons.mp hs
    obtain ⟨ts1, h1, h2, h3⟩ := add_spec conv v ts p h (hq p (by simp)) (hle p (by simp))
    obtain ⟨ts2, g1, g2⟩ := ih ts1 _ _ h2 (fun x hx => hq x (by simp [hx])) hs2 (fun x hx y hy => le_trans (h3 y hy) (hs1 x hx))
    refine ⟨ts2, by rw [TS.addAll, h1]; exact g1, g2.congr ?_ ?_⟩
    · intro t k
      rw [show p :: ps = [p] ++ ps from rfl, amountAt_append, add_assoc]
    · intro t k; simp [occursAt, or_assoc]

/-- Reducing never changes the order of dates. -/
def MonoRed (red : Reducers) : Prop := ∀ r ∈ red.time, ∀ x y, x ≤ y → r x ≤ r y

theorem period_mono {red : Reducers} (hm : MonoRed red) (v : View) {ps : List PRef} (hs : InDateOrder v.date ps) :
    ps.Pairwise (fun p q => periodOf red v p ≤ periodOf red v q) := by
  apply hs.imp
  intro p q h
  unfold periodOf
  cases hr : red.time with
  | none => simp
  | some r => exact hm r hr _ _ h

theorem addAll_empty {c : Com} {red : Reducers} (conv : Conv) (v : View) (ps : List PRef) (hm : MonoRed red) (hs : InDateOrder v.date ps)
    (hq : ∀ p ∈ ps, (v.qty p).com = c) :
    ∃ ts, TS.addAll conv red v [] ps = .ok ts ∧ Rep c red (amountAt red v ps) (occursAt red v ps) ts := by
  obtain ⟨ts, h1, h2⟩ := addAll_spec (c := c) conv v ps [] (fun _ _ => 0) (fun _ _ => False)
    ⟨⟨by simp, by simp⟩, ⟨by simp⟩, by simp, by simp⟩ hq (period_mono hm v hs) (by simp)
  exact ⟨ts, h1, h2.congr (by simp) (by simp)⟩

/-! ### Merging -/

theorem merge_rep {c : Com} {red : Reducers} {V V2 : Int → Option Str → Int} {H H2 : Int → Option Str → Prop} (conv : Conv) (ko : Bool) (ts ts2 : TS)
    (hred : red.time.isSome = true ∨ red.category.isSome = true) (h1 : Rep c red V H ts) (h2 : Rep c red V2 H2 ts2) :
    ∃ ts', mergeTotals conv red ko ts ts2 = .ok ts' ∧
      Rep c red (fun t k => V t k + (if ko then 0 else V2 t k)) (fun t k => H t k ∨ H2 t k) ts' := by
  obtain ⟨ts', g1, g2, g3⟩ := mergeTotals_spec conv ko ts ts2 hred h1.red h2.red h1.ok h2.ok
  exact ⟨ts', g1, ⟨g2.ok, g3, fun t k => by rw [g2.val, h1.val, h2.val], fun t k => by rw [g2.has, h1.has, h2.has]⟩⟩

/-- What a subtree contributes to its parent. -/
def contrib (names : List Str) (L : Links) (recurse : Bool) (V : Str → Int → Option Str → Int) (a : Str) (t : Int) (k : Option Str) : Int :=
  if recurse then ((walkOf names L a).map (fun x => V x t k)).sum else 0

/-- What an account shows. -/
def shown (names : List Str) (L : Links) (recurse : Bool) (V : Str → Int → Option Str → Int) (a : Str) (t : Int) (k : Option Str) : Int :=
  if recurse then ((walkOf names L a).map (fun x => V x t k)).sum else V a t k

/-- Where an account shows something. -/
def shownAt (names : List Str) (L : Links) (H : Str → Int → Option Str → Prop) (a : Str) (t : Int) (k : Option Str) : Prop :=
  ∃ x ∈ walkOf names L a, H x t k

theorem TreeOK.mergeUp_walk (t : TreeOK names L) (conv : Conv) (red : Reducers) (hred : red.time.isSome = true ∨ red.category.isSome = true)
    (recurse : Bool) (c : Com) (V : Str → Int → Option Str → Int) (H : Str → Int → Option Str → Prop) : ∀ a ∈ names,
    ∀ (m : TSMap) (rest : List Str), (∀ x ∈ walkOf names L a, ∃ ts, m x = some ts ∧ Rep c red (V x) (H x) ts) →
    (∀ p, L.parent a = some p → ∀ ts, m p = some ts → ∃ V' H', Rep c red V' H' ts) →
    ∃ m', mergeUp conv red recurse L.parent m (walkPostOf names L a ++ rest) = mergeUp conv red recurse L.parent m' rest ∧
      (∀ x ∈ walkOf names L a, ∃ ts, m' x = some ts ∧ Rep c red (shown names L recurse V x) (shownAt names L H x) ts) ∧
      (∀ p, L.parent a = some p → (m p = none → m' p = none) ∧ ∀ ts V' H', m p = some ts → Rep c red V' H' ts →
        ∃ ts', m' p = some ts' ∧ Rep c red (fun s k => V' s k + contrib names L recurse V a s k) (fun s k => H' s k ∨ shownAt names L H a s k) ts') ∧
      (∀ x, x ∉ walkOf names L a → L.parent a ≠ some x → m' x = m x) := by
  refine t.induction (Q := fun a => ∀ (m : TSMap) (rest : List Str), (∀ x ∈ walkOf names L a, ∃ ts, m x = some ts ∧ Rep c red (V x) (H x) ts) →
    (∀ p, L.parent a = some p → ∀ ts, m p = some ts → ∃ V' H', Rep c red V' H' ts) →
    ∃ m', mergeUp conv red recurse L.parent m (walkPostOf names L a ++ rest) = mergeUp conv red recurse L.parent m' rest ∧
      (∀ x ∈ walkOf names L a, ∃ ts, m' x = some ts ∧ Rep c red (shown names L recurse V x) (shownAt names L H x) ts) ∧
      (∀ p, L.parent a = some p → (m p = none → m' p = none) ∧ ∀ ts V' H', m p = some ts → Rep c red V' H' ts →
        ∃ ts', m' p = some ts' ∧ Rep c red (fun s k => V' s k + contrib names L recurse V a s k) (fun s k => H' s k ∨ shownAt names L H a s k) ts') ∧
      (∀ x, x ∉ walkOf names L a → L.parent a ≠ some x → m' x = m x)) ?_
  intro a ha ih m rest hm hpc
  have forest : ∀ (cs : List Str), cs.Nodup → (∀ d ∈ cs, d ∈ L.children a) → ∀ (m : TSMap) (rest : List Str) (V' : Int → Option Str → Int)
      (H' : Int → Option Str → Prop) (ts : TS),
      (∀ d ∈ cs, ∀ x ∈ walkOf names L d, ∃ ts, m x = some ts ∧ Rep c red (V x) (H x) ts) → m a = some ts → Rep c red V' H' ts →
      ∃ m', mergeUp conv red recurse L.parent m (cs.flatMap (walkPostOf names L) ++ rest) = mergeUp conv red recurse L.parent m' rest ∧
        (∀ d ∈ cs, ∀ x ∈ walkOf names L d, ∃ ts, m' x = some ts ∧ Rep c red (shown names L recurse V x) (shownAt names L H x) ts) ∧
        (∃ ts', m' a = some ts' ∧ Rep c red (fun s k => V' s k + (cs.map (fun d => contrib names L recurse V d s k)).sum)
          (fun s k => H' s k ∨ ∃ d ∈ cs, shownAt names L H d s k) ts') ∧
        (∀ x, x ≠ a → (∀ d ∈ cs, x ∉ walkOf names L d) → m' x = m x) := by
    intro cs
    induction cs with
    | nil => intro _ _ m rest V' H' ts _ h hR; exact ⟨m, rfl, by simp, ⟨ts, h, hR.congr (by simp) (by simp)⟩, fun _ _ _ => rfl⟩
    | cons d cs ihc =>
      intro hn hsub m rest V' H' ts hv hs hR
      have hd := hsub d (by simp)
      have hpd := t.parent_of_child hd
      obtain ⟨hnd, hn'⟩ := List.nodup_cons.mp hn
      obtain ⟨m1, h1, h2, h3, h4⟩ := ih d hd m (cs.flatMap (walkPostOf names L) ++ rest) (hv d (by simp)) (by
        intro p hp q hq
        rw [hpd] at hp; injection hp with hp; subst hp
        rw [hs] at hq; injection hq with hq; rw [← hq]; exact ⟨V', H', hR⟩)
      obtain ⟨ts1, k1, k2⟩ := (h3 a hpd).2 ts V' H' hs hR
      have hdisj : ∀ e ∈ cs, ∀ x ∈ walkOf names L e, x ∉ walkOf names L d := by
        intro e he x hx hx'
        have hem := hsub e (by simp [he])
        have := t.siblings_disjoint hd hem ((t.mem_walk d (t.child_names hd) x).mp hx').2 ((t.mem_walk e (t.child_names hem) x).mp hx).2
        subst this; exact hnd he
      have hnota : ∀ e ∈ L.children a, ∀ x ∈ walkOf names L e, x ≠ a := by
        rintro e he x hx rfl; exact t.not_mem_walk_child he hx
      obtain ⟨m2, g1, g2, g3, g4⟩ := ihc hn' (fun e he => hsub e (by simp [he])) m1 rest _ _ ts1
        (by
          intro e he x hx
          rw [h4 x (hdisj e he x hx) (by
            rw [hpd]; intro h; injection h with h
            exact hnota e (hsub e (by simp [he])) x hx h.symm)]
          exact hv e (by simp [he]) x hx)
        k1 k2
      refine ⟨m2, ?_, ?_, ?_, ?_⟩
      · rw [List.flatMap_cons, List.append_assoc, h1, g1]
      · intro e he x hx
        rcases List.mem_cons.mp he with rfl | he
        · rw [g4 x (hnota e hd x hx) (fun e' he' hx' => hdisj e' he' x hx' hx)]
          exact h2 x hx
        · exact g2 e he x hx
      · obtain ⟨ts2, j1, j2⟩ := g3
        refine ⟨ts2, j1, j2.congr ?_ ?_⟩
        · intro s k; simp only [List.map_cons, List.sum_cons]; rw [add_assoc]
        · intro s k; simp only [List.mem_cons, exists_eq_or_imp]; rw [or_assoc]
      · intro x hxa hx
        rw [g4 x hxa (fun e he => hx e (by simp [he])), h4 x (hx d (by simp)) (by
          rw [hpd]; intro h; injection h with h; exact hxa h.symm)]
  have hwalk := t.walk_cons a
  obtain ⟨ts0, z1, z2⟩ := hm a (by rw [hwalk]; simp)
  obtain ⟨m1, h1, h2, ⟨ts1, h3, h3'⟩, h4⟩ := forest (L.children a) (t.chNodup a) (fun d hd => hd) m (a :: rest) (V a) (H a) ts0
    (fun d hd x hx => hm x (by rw [hwalk]; simp only [List.mem_cons, List.mem_flatMap]; exact .inr ⟨d, hd, hx⟩)) z1 z2
  have hshow : Rep c red (shown names L recurse V a) (shownAt names L H a) ts1 := by
    apply h3'.congr
    · intro s k
      unfold shown contrib
      cases recurse with
      | true => simp only [if_true]; rw [hwalk, List.map_cons, List.sum_cons, sum_flatMap]
      | false => simp
    · intro s k
      unfold shownAt
      rw [hwalk]
      simp only [List.mem_cons, List.mem_flatMap]
      constructor
      · rintro (h | ⟨d, hd, x, hx, h⟩)
        · exact ⟨a, .inl rfl, h⟩
        · exact ⟨x, .inr ⟨d, hd, hx⟩, h⟩
      · rintro ⟨x, rfl | ⟨d, hd, hx⟩, h⟩
        · exact .inl h
        · exact .inr ⟨d, hd, x, hx, h⟩
  have hnotwalk : ∀ p, L.parent a = some p → p ∉ walkOf names L a ∧ p ≠ a := by
    intro p hp
    rw [t.parent] at hp
    split at hp
    · rename_i hh
      injection hp with hp
      subst hp
      have hac := ancName_parentOf a hh.2
      constructor
      · intro hmem
        rcases ((t.mem_walk a ha _).mp hmem).2 with e | e
        · rw [e] at hac; exact ancName_irrefl _ hac
        · exact ancName_irrefl _ (ancName_trans _ _ _ hac e)
      · intro e; rw [e] at hac; exact ancName_irrefl _ hac
    · simp at hp
  have hout : ∀ x, x ∉ walkOf names L a → m1 x = m x := by
    intro x hx
    apply h4
    · rintro rfl; exact hx (by rw [hwalk]; simp)
    · intro d hd hxd; exact hx (by rw [hwalk]; simp only [List.mem_cons, List.mem_flatMap]; exact .inr ⟨d, hd, hxd⟩)
  have hin : ∀ x ∈ walkOf names L a, ∃ ts, m1 x = some ts ∧ Rep c red (shown names L recurse V x) (shownAt names L H x) ts := by
    intro x hx
    rw [hwalk, List.mem_cons, List.mem_flatMap] at hx
    rcases hx with rfl | ⟨d, hd, hx⟩
    · exact ⟨ts1, h3, hshow⟩
    · exact h2 d hd x hx
  rw [t.walkPost_cons, List.append_assoc, List.singleton_append, h1]
  cases hpar : L.parent a with
  | none =>
    refine ⟨m1, ?_, hin, by simp, fun x hx _ => hout x hx⟩
    rw [mergeUp, hpar]
  | some p =>
    obtain ⟨hpw, hpa⟩ := hnotwalk p hpar
    have hmp := hout p hpw
    cases hmpv : m p with
    | none =>
      rw [hmpv] at hmp
      refine ⟨m1, ?_, hin, ?_, fun x hx _ => hout x hx⟩
      · rw [mergeUp, hpar]; simp only [hmp]
      · intro p' hp'; injection hp' with hp'; subst hp'; rw [hmp, hmpv]; simp
    | some q =>
      rw [hmpv] at hmp
      obtain ⟨V', H', hqR⟩ := hpc p hpar q hmpv
      obtain ⟨ts', r1, r2⟩ := merge_rep conv (!recurse) q ts1 hred hqR hshow
      refine ⟨m1.set p ts', ?_, ?_, ?_, ?_⟩
      · rw [mergeUp, hpar]
        simp only [hmp, h3, r1, Except.bind]
      · intro x hx
        have : x ≠ p := by rintro rfl; exact hpw hx
        simp only [TSMap.set, this, if_false]
        exact hin x hx
      · intro p' hp'; injection hp' with hp'; subst hp'
        refine ⟨by rw [hmpv]; simp, ?_⟩
        intro ts V'' H'' hts hR''
        rw [hmpv] at hts; injection hts with hts; subst hts
        obtain ⟨ts'', r1', r2'⟩ := merge_rep conv (!recurse) q ts1 hred hR'' hshow
        rw [r1] at r1'; injection r1' with r1'; subst r1'
        refine ⟨ts', by simp [TSMap.set], r2'.congr ?_ (fun _ _ => Iff.rfl)⟩
        intro s k
        unfold contrib shown
        cases recurse <;> simp
      · intro x hx hxp
        have : x ≠ p := by rintro rfl; exact hxp rfl
        simp only [TSMap.set, this, if_false]
        exact hout x hx

end Verif
