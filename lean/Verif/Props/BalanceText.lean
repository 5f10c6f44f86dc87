import Verif.Props.FormatKeeps
/-
C177: the text of the balance report, to the character.
-/
namespace Verif

/-! ## Specification -/

/-- `s` comes before `t` in the order of characters. -/
def TextBefore (s t : Str) : Prop := List.Lex (fun a b : Char => a.toNat < b.toNat) s t

/-- Names in the order of their parts (the texts between the colons), a name before its extensions; `Root` before all others. -/
def NameBefore (x y : Str) : Prop :=
  y ≠ str "Root" ∧ (x = str "Root" ∨ List.Lex TextBefore (splitOn ':' x) (splitOn ':' y))

/-- `w` is the length of the longest text printed by `s` for the accounts in `S`. -/
def Longest (S : Str → Prop) (s : Str → Except Fault Str) (w : Nat) : Prop :=
  (∀ a, S a → ∃ t, s a = .ok t ∧ t.length ≤ w) ∧ ∃ a t, S a ∧ s a = .ok t ∧ t.length = w

/-- The accounts of the report for `r`: those at or below it that `-l` and `-z` leave. -/
def Reported (names : List Str) (cum : Str → Int) (level : Int) (zero : Bool) (r a : Str) : Prop :=
  a ∈ names ∧ InSub r a ∧ (level = 0 ∨ ((splitOn ':' a).length : Int) ≤ level) ∧ (zero = true ∨ cum a ≠ 0)

/-- The report, to the character: one line for each account, in the order of names; the two columns of totals are right-adjusted and as wide
as the longest total of all accounts at or below `r`, printed or not; the commodity; the full name. -/
structure ExactBalance (names : List Str) (c : Com) (own cum : Str → Int) (level : Int) (zero : Bool) (r : Str) (lines : List Str) : Prop where
  exact : ∃ accs w cw, (∀ a, a ∈ accs ↔ Reported names cum level zero r a) ∧ accs.Pairwise NameBefore ∧
    Longest (fun a => a ∈ names ∧ InSub r a) (fun a => (Amount.mk (own a) c).string) w ∧ Longest (fun a => a ∈ names ∧ InSub r a) (fun a => (Amount.mk (cum a) c).string) cw ∧
    List.Forall₂ (fun a line => ∃ o x, (Amount.mk (own a) c).string = .ok o ∧ (Amount.mk (cum a) c).string = .ok x ∧
      line = rep (w - o.length) ' ' ++ o ++ str " | " ++ rep (cw - x.length) ' ' ++ x ++ str " " ++ c.id ++ rep (blen c.id - c.id.length) ' ' ++ str " | " ++ a) accs lines

/-! ## The order of names -/

theorem textBefore_iff (s t : Str) : TextBefore s t ↔ strLt s t = true := by
  unfold TextBefore
  induction s generalizing t with
  | nil =>
    cases t with
    | nil => constructor <;> intro h <;> cases h
    | cons b t => exact ⟨fun _ => rfl, fun _ => .nil⟩
  | cons a s ih =>
    cases t with
    | nil => constructor <;> intro h <;> cases h
    | cons b t =>
      rw [strLt]
      simp only [Bool.or_eq_true, Bool.and_eq_true, decide_eq_true_eq]
      constructor
      · intro h
        cases h with
        | cons h => exact .inr ⟨rfl, (ih t).mp h⟩
        | rel h => exact .inl h
      · rintro (h | ⟨rfl, h⟩)
        · exact .rel h
        · exact .cons ((ih t).mpr h)

theorem splitOn_colon (p r : Str) : splitOn ':' (p ++ ':' :: r) = splitOn ':' p ++ splitOn ':' r := by
  induction p with
  | nil => simp [splitOn]
  | cons c p ih =>
    rw [List.cons_append, splitOn, splitOn]
    split
    · rw [ih]; rfl
    · rw [ih]
      rcases h : splitOn ':' p with _ | ⟨u, us⟩
      · exact absurd h (splitOn_ne_nil ':' p)
      · rfl

theorem lex_prefix {α : Type} {R : α → α → Prop} (p : List α) {x y : List α} (h : List.Lex R x y) : List.Lex R (p ++ x) (p ++ y) := by
  induction p with
  | nil => exact h
  | cons a p ih => exact .cons ih

theorem lex_longer {α : Type} {R : α → α → Prop} (p : List α) {x : List α} (h : x ≠ []) : List.Lex R p (p ++ x) := by
  induction p with
  | nil =>
    cases x with
    | nil => exact absurd rfl h
    | cons a x => exact .nil
  | cons a p ih => exact .cons ih

/-- The parts of a name are those of its parent and its own. -/
theorem parts_of_name {names : List Str} (hp : PlainNames names) {a : Str} (ha : a ∈ names) :
    splitOn ':' a = (if parentOf a = rootName then [] else splitOn ':' (parentOf a)) ++ [(parentAndName a).2] := by
  by_cases hc : ':' ∈ a
  · obtain ⟨p, x, e, hx⟩ := exists_lastSplit ':' a hc
    have e' := parentAndName_some p x hx
    rw [← e] at e'
    have h1 : p ≠ [] := by rintro rfl; exact (hp a ha).1 x e
    have h2 : p ≠ rootName := by rintro rfl; exact (hp a ha).2 ⟨by decide, x, e⟩
    have h3 : parentOf a = p := by unfold parentOf; rw [e', if_neg h1]
    rw [h3, if_neg h2, e', e, splitOn_colon, splitOn_noSep ':' x hx]
  · have e' := parentAndName_none a hc
    have h3 : parentOf a = rootName := by unfold parentOf; rw [e', if_pos rfl]
    rw [h3, if_pos rfl, e', splitOn_noSep ':' a hc]
    rfl

theorem nameBefore_below {a y : Str} (h : AncName a y) : NameBefore a y := by
  obtain ⟨h1, h2⟩ := h
  refine ⟨h1, ?_⟩
  rcases h2 with rfl | ⟨_, r, rfl⟩
  · exact .inl rfl
  · right
    rw [splitOn_colon]
    exact lex_longer _ (splitOn_ne_nil ':' r)

/-- The parts of a name below `c` start with those of `c`. -/
theorem parts_below {c x : Str} (hc : c ≠ rootName) (h : InSub c x) : ∃ more, splitOn ':' x = splitOn ':' c ++ more := by
  rcases h with rfl | ⟨_, h | ⟨_, r, rfl⟩⟩
  · exact ⟨[], by simp⟩
  · exact absurd h hc
  · exact ⟨splitOn ':' r, splitOn_colon _ _⟩

theorem TreeOK.walk_sorted {names : List Str} {L : Links} (t : TreeOK names L) (hp : PlainNames names)
    (hs : ∀ p, (L.children p).Pairwise (fun a b => strLt (parentAndName b).2 (parentAndName a).2 = false)) :
    ∀ a ∈ names, (walkOf names L a).Pairwise NameBefore := by
  refine t.induction (Q := fun a => (walkOf names L a).Pairwise NameBefore) ?_
  intro a ha ih
  rw [t.walk_cons, List.pairwise_cons]
  constructor
  · intro y hy
    obtain ⟨c, hc, hx⟩ := List.mem_flatMap.mp hy
    have hac := t.child_anc hc
    refine nameBefore_below ?_
    rcases ((t.mem_walk c (t.child_names hc) y).mp hx).2 with h' | h'
    · subst h'; exact hac
    · exact ancName_trans _ _ _ hac h'
  · have : ∀ cs : List Str, cs.Nodup → cs.Pairwise (fun a b => strLt (parentAndName b).2 (parentAndName a).2 = false) → (∀ c ∈ cs, c ∈ L.children a) →
        (cs.flatMap (walkOf names L)).Pairwise NameBefore := by
      intro cs
      induction cs with
      | nil => intro _ _ _; exact List.Pairwise.nil
      | cons c cs ihc =>
        intro hn hs h
        obtain ⟨hn1, hn2⟩ := List.nodup_cons.mp hn
        obtain ⟨hs1, hs2⟩ := List.pairwise_cons.mp hs
        simp only [List.flatMap_cons]
        rw [List.pairwise_append]
        refine ⟨ih c (h c (by simp)), ihc hn2 hs2 (fun d hd => h d (by simp [hd])), ?_⟩
        intro x hx y hy
        obtain ⟨d, hd, hy⟩ := List.mem_flatMap.mp hy
        have hc := h c (by simp)
        have hdm := h d (by simp [hd])
        obtain ⟨c1, c2, c3⟩ := (t.mem a c).mp hc
        obtain ⟨d1, d2, d3⟩ := (t.mem a d).mp hdm
        have hxc := ((t.mem_walk c (t.child_names hc) x).mp hx).2
        have hyd := ((t.mem_walk d (t.child_names hdm) y).mp hy).2
        have hne : c ≠ d := fun e => hn1 (e ▸ hd)
        have hlt : strLt (parentAndName c).2 (parentAndName d).2 = true := by
          cases hb : strLt (parentAndName c).2 (parentAndName d).2 with
          | true => rfl
          | false => exact absurd (child_name hp c1 d1 (c3.trans d3.symm) (strLt_total _ _ hb (hs1 d hd))) hne
        obtain ⟨m1, e1⟩ := parts_below c2 hxc
        obtain ⟨m2, e2⟩ := parts_below d2 hyd
        refine ⟨?_, .inr ?_⟩
        · rcases hyd with rfl | hyd
          · exact d2
          · exact hyd.1
        · rw [e1, e2, parts_of_name hp c1, parts_of_name hp d1, c3, d3, List.append_assoc, List.append_assoc]
          exact lex_prefix _ (.rel ((textBefore_iff _ _).mpr hlt))
    exact this _ (t.chNodup a) (hs a) (fun c hc => hc)

/-! ## The widths -/

theorem balWidth_longest {c : Com} (hd : c.decimals ≤ 50) (f : Str → Int) : ∀ (l : List Str) (w : Int), l ≠ [] →
    balWidth (fun _ => c) (fun a => some ⟨f a, c⟩) l = .ok w → ∃ n : Nat, w = n ∧ Longest (· ∈ l) (fun a => (Amount.mk (f a) c).string) n := by
  intro l
  induction l with
  | nil => intro _ h; exact absurd rfl h
  | cons a l ih =>
    intro w _ h
    rw [balWidth] at h
    simp only at h
    obtain ⟨v, h1, h⟩ := bind_ok.mp h
    obtain ⟨r, h2, h3⟩ := bind_ok.mp h
    obtain ⟨s, hs, hw⟩ := C08_width ⟨f a, c⟩ hd (width_small h1)
    have hv : v = s.length := Except.ok.inj (h1.symm.trans hw)
    cases h3
    by_cases hl : l = []
    · subst hl
      cases h2
      refine ⟨s.length, ?_, ?_, a, s, by simp, hs, rfl⟩
      · rw [hv]; split <;> omega
      · intro b hb
        simp only [List.mem_singleton] at hb
        subst hb
        exact ⟨s, hs, Nat.le_refl _⟩
    · obtain ⟨n, rfl, k1, b, u, k2, k3, k4⟩ := ih r hl h2
      by_cases hgt : v > n
      · rw [if_pos hgt]
        refine ⟨s.length, hv, ?_, a, s, by simp, hs, rfl⟩
        intro b hb
        rcases List.mem_cons.mp hb with rfl | hb
        · exact ⟨s, hs, Nat.le_refl _⟩
        · obtain ⟨t, e1, e2⟩ := k1 b hb
          exact ⟨t, e1, by omega⟩
      · rw [if_neg hgt]
        refine ⟨n, rfl, ?_, b, u, by simp [k2], k3, k4⟩
        intro b hb
        rcases List.mem_cons.mp hb with rfl | hb
        · exact ⟨s, hs, by omega⟩
        · exact k1 b hb

theorem curWidth_one {c : Com} (f : Str → Int) : ∀ l : List Str, l ≠ [] → curWidth (fun a => some ⟨f a, c⟩) l = blen c.id := by
  intro l
  induction l with
  | nil => intro h; exact absurd rfl h
  | cons a l ih =>
    intro _
    rw [curWidth]
    simp only
    by_cases hl : l = []
    · subst hl; simp [curWidth]
    · rw [ih hl]; simp

/-! ## The rows -/

theorem balanceRows_exact {parent : Str → Option Str} {fuel : Nat} {level : Int} {zero : Bool} {t k : AmtMap} : ∀ (l : List Str) {rows : List (Str × Option Amount × Option Amount)},
    balanceRows parent fuel level zero t k l = .ok rows →
    (rows.map (·.1)).Sublist l ∧ (∀ x ∈ rows, x = (x.1, t x.1, k x.1)) ∧
      ∀ a ∈ l, (a ∈ rows.map (·.1) ↔ (level = 0 ∨ ∃ d : Nat, depth parent fuel a = .ok d ∧ (d : Int) ≤ level) ∧ (zero = true ∨ entryNonZero (k a) = true)) ∨ ¬ l.Nodup := by
  intro l
  induction l with
  | nil => intro rows h; cases h; exact ⟨.slnil, by simp, by simp⟩
  | cons a l ih =>
    intro rows h
    rw [balanceRows] at h
    obtain ⟨skip, hs, h⟩ := bind_ok.mp h
    obtain ⟨rs, h1, h⟩ := bind_ok.mp h
    obtain ⟨i1, i2, i3⟩ := ih h1
    have hskip : skip = false ↔ (level = 0 ∨ ∃ d : Nat, depth parent fuel a = .ok d ∧ (d : Int) ≤ level) := by
      split at hs
      · rename_i h0
        cases hs
        exact ⟨fun _ => .inl h0, fun _ => rfl⟩
      · rename_i h0
        obtain ⟨d, hd, hs⟩ := bind_ok.mp hs
        cases hs
        simp only [decide_eq_false_iff_not, h0, false_or]
        constructor
        · intro h; exact ⟨d, hd, by omega⟩
        · rintro ⟨d', e, h⟩
          rw [hd] at e
          cases e
          omega
    injection h with h
    have hrows : rows = if skip = false ∧ (zero = true ∨ entryNonZero (k a) = true) then (a, t a, k a) :: rs else rs := by
      rw [← h]
      cases skip <;> cases zero <;> cases entryNonZero (k a) <;> rfl
    subst hrows
    split
    · rename_i hh
      refine ⟨.cons_cons _ i1, ?_, ?_⟩
      · intro x hx
        rcases List.mem_cons.mp hx with rfl | hx
        · rfl
        · exact i2 x hx
      · intro b hb
        by_cases hn : (a :: l).Nodup
        · left
          rcases List.mem_cons.mp hb with rfl | _
          · exact ⟨fun _ => ⟨hskip.mp hh.1, hh.2⟩, fun _ => by simp⟩
          · rename_i hbl
            rcases i3 b hbl with h | h
            · rw [List.map_cons, List.mem_cons]
              have : b ≠ a := fun e => (List.nodup_cons.mp hn).1 (e ▸ hbl)
              simp only [this, false_or]
              exact h
            · exact absurd (List.nodup_cons.mp hn).2 h
        · exact .inr hn
    · rename_i hh
      refine ⟨i1.cons _, i2, ?_⟩
      intro b hb
      by_cases hn : (a :: l).Nodup
      · left
        rcases List.mem_cons.mp hb with rfl | hb
        · constructor
          · intro hm; exact absurd (i1.subset hm) (List.nodup_cons.mp hn).1
          · intro h; exact absurd ⟨hskip.mpr h.1, h.2⟩ hh
        · rcases i3 b hb with h | h
          · exact h
          · exact absurd (List.nodup_cons.mp hn).2 h
      · exact .inr hn

theorem linesOf_rows {α : Type} {f : α → Except Fault Str} : ∀ {l : List α} {lines : List Str}, linesOf f l = .ok lines → List.Forall₂ (fun x s => f x = .ok s) l lines := by
  intro l
  induction l with
  | nil => intro lines h; cases h; exact .nil
  | cons x l ih =>
    intro lines h
    rw [linesOf] at h
    obtain ⟨s, h1, h⟩ := bind_ok.mp h
    obtain ⟨ls, h2, h⟩ := bind_ok.mp h
    cases h
    exact .cons h1 (ih h2)

theorem balanceReportText_exact {dflt : Str} {decls accts : List Acct} {L : Links} (h : ResolvedAccounts dflt decls accts L) (hp : PlainNames (accts.map (·.fullName)))
    {c : Com} (hd : c.decimals ≤ 50) (level : Int) (zero : Bool) (own : Str → Int) {r : Str} (hr : r ∈ accts.map (·.fullName)) {lines : List Str}
    (ht : balanceReportText (accts.map (·.fullName)) L c level zero own r = .ok lines) :
    ExactBalance (accts.map (·.fullName)) c own (fun a => ((familyOf (accts.map (·.fullName)) a).map own).sum) level zero r lines := by
  have t := TreeOK.of h
  have hsort : ∀ p, (L.children p).Pairwise (fun a b => strLt (parentAndName b).2 (parentAndName a).2 = false) := by
    obtain ⟨_, _, _, _, _, _, _, _, _, hs⟩ := h; exact fun p => (hs p).2
  set names := accts.map (·.fullName) with hnames
  have hmem := t.mem_walk r hr
  have hne : walkOf names L r ≠ [] := List.ne_nil_of_mem ((hmem r).mpr ⟨hr, .inl rfl⟩)
  unfold balanceReportText at ht
  simp only at ht
  obtain ⟨w, h1, ht⟩ := bind_ok.mp ht
  obtain ⟨cw, h2, ht⟩ := bind_ok.mp ht
  obtain ⟨rows, h3, ht⟩ := bind_ok.mp ht
  obtain ⟨n, rfl, hw⟩ := balWidth_longest hd own _ _ hne h1
  obtain ⟨m, rfl, hcw⟩ := balWidth_longest hd (fun a => ((familyOf names a).map own).sum) _ _ hne h2
  obtain ⟨r1, r2, r3⟩ := balanceRows_exact _ h3
  have hL : ∀ {s : Str → Except Fault Str} {w : Nat}, Longest (· ∈ walkOf names L r) s w → Longest (fun a => a ∈ names ∧ InSub r a) s w := by
    rintro s w ⟨k1, a, u, k2, k3⟩
    exact ⟨fun a ha => k1 a ((hmem a).mpr ha), a, u, (hmem a).mp k2, k3⟩
  refine ⟨rows.map (·.1), n, m, ?_, (t.walk_sorted hp hsort r hr).sublist r1, hL hw, hL hcw, ?_⟩
  · intro a
    constructor
    · intro ha
      have hm := (hmem a).mp (r1.subset ha)
      rcases r3 a (r1.subset ha) with hx | hx
      · obtain ⟨g1, g2⟩ := hx.mp ha
        refine ⟨hm.1, hm.2, ?_, ?_⟩
        · rcases g1 with g1 | ⟨d, g1, g3⟩
          · exact .inl g1
          · right
            rw [C23_depth_partial _ _ _ _ h a hm.1 (hp a hm.1).1 (hp a hm.1).2 (treeFuel names) (by have := le_maxLen hm.1; unfold treeFuel; omega)] at g1
            cases g1
            exact g3
        · rcases g2 with g2 | g2
          · exact .inl g2
          · right
            simpa [entryNonZero] using g2
      · exact absurd (t.walk_nodup r hr) hx
    · rintro ⟨g1, g2, g3, g4⟩
      have hw := (hmem a).mpr ⟨g1, g2⟩
      rcases r3 a hw with hx | hx
      · refine hx.mpr ⟨?_, ?_⟩
        · rcases g3 with g3 | g3
          · exact .inl g3
          · exact .inr ⟨_, C23_depth_partial _ _ _ _ h a g1 (hp a g1).1 (hp a g1).2 (treeFuel names) (by have := le_maxLen g1; unfold treeFuel; omega), g3⟩
        · rcases g4 with g4 | g4
          · exact .inl g4
          · right
            simpa [entryNonZero] using g4
      · exact absurd (t.walk_nodup r hr) hx
  · rw [List.forall₂_map_left_iff]
    refine forall2_imp_mem (linesOf_rows ht) ?_
    intro x hx line hline
    rw [r2 x hx] at hline
    have hm := r1.subset (List.mem_map_of_mem (f := (·.1)) hx)
    unfold balanceLine at hline
    simp only at hline
    obtain ⟨o', h4, hline⟩ := bind_ok.mp hline
    obtain ⟨x', h5, hline⟩ := bind_ok.mp hline
    obtain ⟨o, e1, rfl⟩ := amountStar_inv h4
    obtain ⟨y, e2, rfl⟩ := amountStar_inv h5
    obtain ⟨o2, e3, l1⟩ := hw.1 x.1 hm
    obtain ⟨y2, e4, l2⟩ := hcw.1 x.1 hm
    cases e3.symm.trans e1
    cases e4.symm.trans e2
    injection hline with hline
    refine ⟨o, y, e1, e2, ?_⟩
    rw [← hline, curWidth_one _ _ hne]
    have p1 : ∀ (n : Nat) (s : Str), s.length ≤ n → padStar n s = rep (n - s.length) ' ' ++ s := by
      intro n s _
      unfold padStar padLeft
      rw [if_neg (by omega)]
      rfl
    rw [p1 _ _ l1, p1 _ _ l2]
    unfold padRight
    simp only [List.append_assoc]

/-- **C177** The balance report, to the character: whenever the command prints something for a ledger of one commodity, it prints exactly the
lines of `ExactBalance` for the account asked for and the totals of the files under the filters. -/
theorem C177_balance_text (P : Install) (compile : Compile) (st : LoadState) (accts : List Acct) (g : LedgerView) (hO : Opened P compile st accts g)
    (hp : PlainNames (accts.map (·.fullName))) (c : Com) (hc : OneCom st accts c) (hdec : c.decimals ≤ 50)
    (fe : FlagEnv) (w : Str) (l : List (Str × Str)) (toks : List (List Str)) (tail args : List Str) (hw : commandOf w = some .balance)
    (hl : List.Forall₂ (Written fe (flagsOf .balance)) l toks) (ht : Remaining tail args) (hv : ValidFilters compile (filtersOf fe l))
    (out : Str) (hout : coinMain fe g (w :: (toks.flatten ++ tail)) = .ok out) :
    ∃ r lines, Asked (accts.map (·.fullName)) args r ∧ out = textOf lines ∧
      ExactBalance (accts.map (·.fullName)) c (ownUnits (accts.map (·.fullName)) compile (filtersOf fe l) st.txns)
        (cumUnits (accts.map (·.fullName)) compile (filtersOf fe l) st.txns) (fe.intFlag l (str "l") 0) (boolFlag l (str "z")) r lines := by
  obtain ⟨e1, e2, e3, _, _, hA, hf, _, hone, hown⟩ := opened_balance hO hc (filtersOf fe l)
  obtain ⟨hn, _, _, _, hroot⟩ := resolved_spec _ _ _ _ hA
  unfold coinMain at hout
  rw [dispatch_written hw hl ht] at hout
  have hout : (balanceMain fe g l args).bind (fun ls => .ok (textOf ls)) = .ok out := hout
  obtain ⟨lines, hb, ho⟩ := bind_ok.mp hout
  injection ho with ho
  unfold balanceMain at hb
  obtain ⟨r, hr, hb⟩ := bind_ok.mp hb
  have hask := (asked_of e2 e3).mp hr
  have hrm : r ∈ accts.map (·.fullName) := by
    rcases hask with ⟨_, rfl⟩ | ⟨a, rest, _, hf⟩
    · exact hroot
    · exact mustFind_mem hn hf
  rw [e1, balanceOut_text hA _ _ _ _ hv _ _ _ r c hrm (hone r) hf] at hb
  have hown' : ownSum compile g.view (filtersOf fe l) = ownUnits (accts.map (·.fullName)) compile (filtersOf fe l) st.txns := by
    funext a
    unfold ownSum
    exact hown a
  rw [hown'] at hb
  refine ⟨r, lines, hask, ho.symm, ?_⟩
  have := balanceReportText_exact hA hp hdec _ _ _ hrm hb
  exact this

/-! ## There is only one such text -/

theorem lex_asymm {α : Type} {R : α → α → Prop} (hR : ∀ a b, R a b → ¬ R b a) : ∀ {x y : List α}, List.Lex R x y → ¬ List.Lex R y x := by
  intro x y h
  induction h with
  | nil => intro h; cases h
  | cons h ih =>
    intro h'
    cases h' with
    | cons h' => exact ih h'
    | rel h' => exact hR _ _ h' h'
  | rel h =>
    intro h'
    cases h' with
    | cons h' => exact hR _ _ h h
    | rel h' => exact hR _ _ h h'

theorem nameBefore_asymm {x y : Str} (h : NameBefore x y) : ¬ NameBefore y x := by
  rintro ⟨h1, h2⟩
  obtain ⟨h3, h4⟩ := h
  rcases h4 with h4 | h4
  · exact h1 h4
  · rcases h2 with h2 | h2
    · exact h3 h2
    · refine lex_asymm ?_ h4 h2
      intro a b hab hba
      rw [textBefore_iff] at hab hba
      rw [strLt_asymm _ _ hab] at hba
      cases hba

theorem longest_unique {S : Str → Prop} {s : Str → Except Fault Str} {w w' : Nat} (h : Longest S s w) (h' : Longest S s w') : w = w' := by
  obtain ⟨h1, a, t, h2, h3, h4⟩ := h
  obtain ⟨k1, b, u, k2, k3, k4⟩ := h'
  obtain ⟨t', e1, e2⟩ := k1 a h2
  obtain ⟨u', e3, e4⟩ := h1 b k2
  cases h3.symm.trans e1
  cases k3.symm.trans e3
  omega

/-- **C177** The report is determined by the accounts, their totals and the flags. -/
theorem C177_unique (names : List Str) (c : Com) (own cum : Str → Int) (level : Int) (zero : Bool) (r : Str) (lines lines' : List Str)
    (h : ExactBalance names c own cum level zero r lines) (h' : ExactBalance names c own cum level zero r lines') : lines = lines' := by
  obtain ⟨⟨accs, w, cw, h1, h2, h3, h4, h5⟩⟩ := h
  obtain ⟨⟨accs', w', cw', k1, k2, k3, k4, k5⟩⟩ := h'
  have hn : ∀ {l : List Str}, l.Pairwise NameBefore → l.Nodup := by
    intro l hl
    exact hl.imp (fun hab e => by subst e; exact nameBefore_asymm hab hab)
  have hperm : accs.Perm accs' := by
    rw [List.perm_ext_iff_of_nodup (hn h2) (hn k2)]
    intro a
    rw [h1, k1]
  have e : accs = accs' := List.Perm.eq_of_pairwise (fun a b _ _ hab hba => absurd hba (nameBefore_asymm hab)) h2 k2 hperm
  subst e
  cases longest_unique h3 k3
  cases longest_unique h4 k4
  clear h1 h2 h3 h4 k1 k2 k3 k4 hperm
  induction h5 generalizing lines' with
  | nil => cases k5; rfl
  | cons hx _ ih =>
    cases k5 with
    | cons hy hrest =>
      rw [ih _ hrest]
      obtain ⟨o, x, a1, a2, rfl⟩ := hx
      obtain ⟨o', x', b1, b2, rfl⟩ := hy
      cases a1.symm.trans b1
      cases a2.symm.trans b2
      rfl

/-! ## Non-vacuity -/

theorem prog_plain : PlainNames (progAccts.map (·.fullName)) := by
  intro a ha
  have h : ∀ a ∈ progAccts.map (·.fullName), a.head? ≠ some ':' ∧ a.take 5 ≠ str "Root:" := by decide +kernel
  obtain ⟨h1, h2⟩ := h a ha
  refine ⟨?_, ?_⟩
  · rintro x rfl
    exact h1 rfl
  · rintro ⟨_, x, rfl⟩
    exact h2 rfl

/-- All hypotheses of `C177_balance_text` hold of the example ledger, and the text printed is the only one that is exact. -/
example : ∃ r lines, Asked (progAccts.map (·.fullName)) [] r ∧
    str "  0.00 |   0.00 CAD | Root\n  0.00 |   6.50 CAD | Assets\n  6.50 |   6.50 CAD | Assets:Cash\n  3.50 |   3.50 CAD | Food\n-10.00 | -10.00 CAD | Unbalanced\n" = textOf lines ∧
    ExactBalance (progAccts.map (·.fullName)) progCad (ownUnits (progAccts.map (·.fullName)) (fun _ => none) (filtersOf cmdFlags [(str "z", str "true")]) progState.txns)
      (cumUnits (progAccts.map (·.fullName)) (fun _ => none) (filtersOf cmdFlags [(str "z", str "true")]) progState.txns)
      (cmdFlags.intFlag [(str "z", str "true")] (str "l") 0) (boolFlag [(str "z", str "true")] (str "z")) r lines :=
  C177_balance_text progInstall (fun _ => none) progState progAccts (progView fun _ => none) (prog_opens _).1 prog_plain progCad (prog_opens fun _ => none).2 (by decide)
    cmdFlags (str "balance") [(str "z", str "true")] [[str "-z"]] [] [] (by decide) (.cons (.bare (d := ['-']) (.inl rfl) (by decide)) .nil)
    .nothing ⟨fun h => absurd (by decide +kernel) h, fun h => absurd (by decide +kernel) h⟩ _ (ok_of_opt prog_prints)

end Verif
