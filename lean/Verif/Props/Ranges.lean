import Verif.Props.AgreeAgg
/-
C192: balance reports over adjoining ranges of dates add up.
-/
namespace Verif

/-! ## Specification -/

/-- In a report with the lines `lines` the account `a` stands with the own total `own` and the cumulative total `cum`. -/
def StandsWith (c : Com) (lines : List Str) (a : Str) (own cum : Int) : Prop :=
  ∃ line ∈ lines, ∃ o x, AccountLine c a o x line ∧ (Amount.mk own c).string = .ok o ∧ (Amount.mk cum c).string = .ok x

/-- `f1` ends where `f2` begins, together they cover the range of `f`, and they agree on everything else. -/
structure Adjoin (f1 f2 f : Filters) : Prop where
  meet : ∃ d, f1.end_ = some d ∧ f2.begin_ = some d ∧ (∀ b ∈ f.begin_, b ≤ d) ∧ (∀ e ∈ f.end_, d ≤ e)
  first : f1.begin_ = f.begin_
  last : f2.end_ = f.end_
  payee : f1.payee = f.payee ∧ f2.payee = f.payee
  tag : f1.tag = f.tag ∧ f2.tag = f.tag

/-! ## Lemmas -/

theorem sum_filter_split {α : Type} (u : α → Int) (p q s : α → Bool) (h : ∀ x, s x = (p x || q x)) (hd : ∀ x, ¬ (p x = true ∧ q x = true)) : ∀ l : List α,
    ((l.filter s).map u).sum = ((l.filter p).map u).sum + ((l.filter q).map u).sum := by
  intro l
  induction l with
  | nil => rfl
  | cons x l ih =>
    have h1 := h x
    have h2 := hd x
    cases hp : p x <;> cases hq : q x <;> rw [hp, hq] at h1 <;> simp [List.filter_cons, h1, hp, hq] at h2 ⊢ <;> omega

theorem picks_split {compile : Compile} {f1 f2 f : Filters} (h : Adjoin f1 f2 f) (t : PTxn) (p : PPost) :
    (Picks compile f t p ↔ Picks compile f1 t p ∨ Picks compile f2 t p) ∧ ¬ (Picks compile f1 t p ∧ Picks compile f2 t p) := by
  obtain ⟨⟨d, h1, h2, h3, h4⟩, h5, h6, ⟨h7, h8⟩, h9, h10⟩ := h
  unfold Picks
  rw [h1, h2, h5, h6, h7, h8, h9, h10]
  simp only [Option.mem_some_iff, forall_eq']
  constructor
  · constructor
    · rintro ⟨g1, g2, g3, g4⟩
      by_cases hd : t.posted < d
      · exact .inl ⟨g1, hd, g3, g4⟩
      · exact .inr ⟨by omega, g2, g3, g4⟩
    · rintro (⟨g1, g2, g3, g4⟩ | ⟨g1, g2, g3, g4⟩)
      · exact ⟨g1, fun e he => by have := h4 e he; omega, g3, g4⟩
      · exact ⟨fun b hb => by have := h3 b hb; omega, g2, g3, g4⟩
  · rintro ⟨⟨_, g, _⟩, g', _⟩
    omega

theorem ownUnits_split {names : List Str} {compile : Compile} {f1 f2 f : Filters} (h : Adjoin f1 f2 f) (ts : List PTxn) (a : Str) :
    ownUnits names compile f ts a = ownUnits names compile f1 ts a + ownUnits names compile f2 ts a := by
  classical
  unfold ownUnits booked
  refine sum_filter_split _ _ _ _ ?_ ?_ _
  · rintro ⟨t, p⟩
    rw [← Bool.coe_iff_coe, Bool.or_eq_true, decide_eq_true_iff, decide_eq_true_iff, decide_eq_true_iff, (picks_split h t p).1]
    tauto
  · rintro ⟨t, p⟩
    rw [decide_eq_true_iff, decide_eq_true_iff]
    rintro ⟨⟨_, g⟩, _, g'⟩
    exact (picks_split h t p).2 ⟨g, g'⟩

theorem cumUnits_split {names : List Str} {compile : Compile} {f1 f2 f : Filters} (h : Adjoin f1 f2 f) (ts : List PTxn) (a : Str) :
    cumUnits names compile f ts a = cumUnits names compile f1 ts a + cumUnits names compile f2 ts a := by
  unfold cumUnits
  rw [← List.sum_map_add]
  exact congrArg List.sum (List.map_congr_left fun b _ => ownUnits_split h ts b)

/-- **C192** In a ledger of one commodity `coin balance -z` up to a date and `coin balance -z` from that date on, with the same other filters, add up to
the report without the division: in the three reports every account at or below the one asked for stands with totals that add up. -/
theorem C192_ranges_add_up (P : Install) (compile : Compile) (st : LoadState) (accts : List Acct) (g : LedgerView) (hO : Opened P compile st accts g)
    (hp : PlainNames (accts.map (·.fullName))) (c : Com) (hc : OneCom st accts c) (hdec : c.decimals ≤ 50) (fe : FlagEnv)
    (w1 w2 w : Str) (l1 l2 l : List (Str × Str)) (toks1 toks2 toks : List (List Str)) (tail1 tail2 tail args : List Str)
    (hw1 : commandOf w1 = some .balance) (hl1 : List.Forall₂ (Written fe (flagsOf .balance)) l1 toks1) (ht1 : Remaining tail1 args)
    (hw2 : commandOf w2 = some .balance) (hl2 : List.Forall₂ (Written fe (flagsOf .balance)) l2 toks2) (ht2 : Remaining tail2 args)
    (hw : commandOf w = some .balance) (hl : List.Forall₂ (Written fe (flagsOf .balance)) l toks) (ht : Remaining tail args)
    (hadj : Adjoin (filtersOf fe l1) (filtersOf fe l2) (filtersOf fe l)) (hv : ValidFilters compile (filtersOf fe l))
    (hz : ∀ m ∈ [l1, l2, l], boolFlag m (str "z") = true ∧ fe.intFlag m (str "l") 0 = 0) (out1 out2 out : Str)
    (h1 : coinMain fe g (w1 :: (toks1.flatten ++ tail1)) = .ok out1) (h2 : coinMain fe g (w2 :: (toks2.flatten ++ tail2)) = .ok out2)
    (h : coinMain fe g (w :: (toks.flatten ++ tail)) = .ok out) :
    ∃ r lines1 lines2 lines, Asked (accts.map (·.fullName)) args r ∧ out1 = textOf lines1 ∧ out2 = textOf lines2 ∧ out = textOf lines ∧
      ∀ a ∈ accts.map (·.fullName), InSub r a → ∃ own1 cum1 own2 cum2, StandsWith c lines1 a own1 cum1 ∧ StandsWith c lines2 a own2 cum2 ∧
        StandsWith c lines a (own1 + own2) (cum1 + cum2) := by
  have hval : ∀ k, k.payee = (filtersOf fe l).payee → k.tag = (filtersOf fe l).tag → ValidFilters compile k := by
    intro k e1 e2
    unfold ValidFilters at hv ⊢
    rw [e1, e2]
    exact hv
  have key : ∀ (w : Str) (m : List (Str × Str)) (toks : List (List Str)) (tail : List Str), commandOf w = some .balance → List.Forall₂ (Written fe (flagsOf .balance)) m toks →
      Remaining tail args → ValidFilters compile (filtersOf fe m) → boolFlag m (str "z") = true ∧ fe.intFlag m (str "l") 0 = 0 → ∀ out, coinMain fe g (w :: (toks.flatten ++ tail)) = .ok out →
      ∃ r lines, Asked (accts.map (·.fullName)) args r ∧ out = textOf lines ∧ ∀ a ∈ accts.map (·.fullName), InSub r a →
        StandsWith c lines a (ownUnits (accts.map (·.fullName)) compile (filtersOf fe m) st.txns a) (cumUnits (accts.map (·.fullName)) compile (filtersOf fe m) st.txns a) := by
    intro w m toks tail hw hl ht hv hz out hout
    obtain ⟨r, lines, hask, e, ⟨⟨accs, wd, cw, k1, _, _, _, k5⟩⟩⟩ := C177_balance_text P compile st accts g hO hp c hc hdec fe w m toks tail args hw hl ht hv out hout
    refine ⟨r, lines, hask, e, ?_⟩
    intro a ha hs
    obtain ⟨line, hline, o, x, o1, o2, e'⟩ := forall2_pick k5 ((k1 a).mpr ⟨ha, hs, .inl hz.2, .inl hz.1⟩)
    exact ⟨line, hline, o, x, ⟨_, _, _, e'⟩, o1, o2⟩
  obtain ⟨r1, lines1, a1, e1, k1⟩ := key w1 l1 toks1 tail1 hw1 hl1 ht1 (hval _ hadj.payee.1 hadj.tag.1) (hz l1 (by simp)) out1 h1
  obtain ⟨r2, lines2, a2, e2, k2⟩ := key w2 l2 toks2 tail2 hw2 hl2 ht2 (hval _ hadj.payee.2 hadj.tag.2) (hz l2 (by simp)) out2 h2
  obtain ⟨r, lines, a3, e3, k3⟩ := key w l toks tail hw hl ht hv (hz l (by simp)) out h
  have hr : ∀ r', Asked (accts.map (·.fullName)) args r' → r' = r := by
    intro r' h'
    rcases a3 with ⟨ha, hb⟩ | ⟨a, rest, rfl, hm⟩
    · rcases h' with ⟨_, h'⟩ | ⟨_, _, h, _⟩
      · rw [h', hb]
      · rw [ha] at h; cases h
    · rcases h' with ⟨h, _⟩ | ⟨a', rest', h, hm'⟩
      · cases h
      · cases h; exact means_unique hm' hm
  cases hr _ a1
  cases hr _ a2
  refine ⟨_, lines1, lines2, lines, a3, e1, e2, e3, ?_⟩
  intro a ha hs
  refine ⟨_, _, _, _, k1 a ha hs, k2 a ha hs, ?_⟩
  rw [← ownUnits_split hadj, ← cumUnits_split hadj]
  exact k3 a ha hs

/-- The flags of the example: a date. -/
def rangeFlags : FlagEnv := { int := fun _ => none, date := fun s => if s = str "2020/01/04" then some 737427 else none }

/-- Non-vacuity: the balance reports of `Assets` up to the fourth of January, from then on, and of all time. -/
example : ∃ r lines1 lines2 lines, Asked (progAccts.map (·.fullName)) [str "Assets"] r ∧
    str " 0.00 | -3.50 CAD | Assets\n-3.50 | -3.50 CAD | Assets:Cash\n" = textOf lines1 ∧
    str " 0.00 | 10.00 CAD | Assets\n10.00 | 10.00 CAD | Assets:Cash\n" = textOf lines2 ∧
    str "0.00 | 6.50 CAD | Assets\n6.50 | 6.50 CAD | Assets:Cash\n" = textOf lines ∧
    ∀ a ∈ progAccts.map (·.fullName), InSub r a → ∃ own1 cum1 own2 cum2, StandsWith progCad lines1 a own1 cum1 ∧ StandsWith progCad lines2 a own2 cum2 ∧
      StandsWith progCad lines a (own1 + own2) (cum1 + cum2) := by
  have hb : Written rangeFlags (flagsOf .balance) (str "z", str "true") [str "-z"] := .bare (d := ['-']) (.inl rfl) (by decide)
  refine C192_ranges_add_up progInstall (fun _ => none) progState progAccts (progView fun _ => none) (prog_opens _).1 prog_plain progCad (prog_opens fun _ => none).2 (by decide)
    rangeFlags (str "balance") (str "balance") (str "balance") [(str "z", str "true"), (str "e", str "2020/01/04")] [(str "z", str "true"), (str "b", str "2020/01/04")] [(str "z", str "true")]
    [[str "-z"], [str "-e", str "2020/01/04"]] [[str "-z"], [str "-b=2020/01/04"]] [[str "-z"]] [str "Assets"] [str "Assets"] [str "Assets"] [str "Assets"]
    (by decide) (.cons hb (.cons (.next (d := ['-']) (name := str "e") (k := .date) (.inl rfl) (by decide) (by decide) (by decide)) .nil)) (.plain (.inr (by decide)))
    (by decide) (.cons hb (.cons (.equals (d := ['-']) (name := str "b") (v := str "2020/01/04") (k := .date) (.inl rfl) (by decide) (by decide)) .nil)) (.plain (.inr (by decide)))
    (by decide) (.cons hb .nil) (.plain (.inr (by decide)))
    ⟨⟨737427, by decide, by decide, by decide, by decide⟩, by decide, by decide, ⟨by decide, by decide⟩, by decide, by decide⟩
    ⟨fun h => absurd (by decide +kernel) h, fun h => absurd (by decide +kernel) h⟩ (by decide) _ _ _
    (ok_of_opt (by decide +kernel)) (ok_of_opt (by decide +kernel)) (ok_of_opt (by decide +kernel))

end Verif
