import Verif.Props.Ranges
/-
C198: levels and the account asked for choose lines, not numbers.
-/
namespace Verif

/-- An account has no more than `level` parts; the level 0 sets no limit. -/
def WithinLevel (level : Int) (a : Str) : Prop := level = 0 ∨ ((splitOn ':' a).length : Int) ≤ level

/-- **C198** In a ledger of one commodity: two balance reports for the same dates, payees and tags show an account with the same own and cumulative totals,
whatever accounts they are asked for and whatever their levels, if the account is below both accounts asked for and within both levels. -/
theorem C198_same_numbers (P : Install) (compile : Compile) (st : LoadState) (accts : List Acct) (g : LedgerView) (hO : Opened P compile st accts g)
    (hp : PlainNames (accts.map (·.fullName))) (c : Com) (hc : OneCom st accts c) (hdec : c.decimals ≤ 50) (fe : FlagEnv)
    (w1 w2 : Str) (l1 l2 : List (Str × Str)) (toks1 toks2 : List (List Str)) (tail1 tail2 args1 args2 : List Str)
    (hw1 : commandOf w1 = some .balance) (hl1 : List.Forall₂ (Written fe (flagsOf .balance)) l1 toks1) (ht1 : Remaining tail1 args1)
    (hw2 : commandOf w2 = some .balance) (hl2 : List.Forall₂ (Written fe (flagsOf .balance)) l2 toks2) (ht2 : Remaining tail2 args2)
    (hsame : filtersOf fe l1 = filtersOf fe l2) (hv : ValidFilters compile (filtersOf fe l1))
    (hz1 : boolFlag l1 (str "z") = true) (hz2 : boolFlag l2 (str "z") = true) (out1 out2 : Str)
    (h1 : coinMain fe g (w1 :: (toks1.flatten ++ tail1)) = .ok out1) (h2 : coinMain fe g (w2 :: (toks2.flatten ++ tail2)) = .ok out2) :
    ∃ r1 r2 lines1 lines2, Asked (accts.map (·.fullName)) args1 r1 ∧ Asked (accts.map (·.fullName)) args2 r2 ∧ out1 = textOf lines1 ∧ out2 = textOf lines2 ∧
      ∀ a ∈ accts.map (·.fullName), InSub r1 a → InSub r2 a → WithinLevel (fe.intFlag l1 (str "l") 0) a → WithinLevel (fe.intFlag l2 (str "l") 0) a →
        ∃ own cum, StandsWith c lines1 a own cum ∧ StandsWith c lines2 a own cum := by
  have key : ∀ (w : Str) (m : List (Str × Str)) (toks : List (List Str)) (tail args : List Str), commandOf w = some .balance → List.Forall₂ (Written fe (flagsOf .balance)) m toks →
      Remaining tail args → ValidFilters compile (filtersOf fe m) → boolFlag m (str "z") = true → ∀ out, coinMain fe g (w :: (toks.flatten ++ tail)) = .ok out →
      ∃ r lines, Asked (accts.map (·.fullName)) args r ∧ out = textOf lines ∧ ∀ a ∈ accts.map (·.fullName), InSub r a → WithinLevel (fe.intFlag m (str "l") 0) a →
        StandsWith c lines a (ownUnits (accts.map (·.fullName)) compile (filtersOf fe m) st.txns a) (cumUnits (accts.map (·.fullName)) compile (filtersOf fe m) st.txns a) := by
    intro w m toks tail args hw hl ht hv hz out hout
    obtain ⟨r, lines, hask, e, ⟨⟨accs, wd, cw, k1, _, _, _, k5⟩⟩⟩ := C177_balance_text P compile st accts g hO hp c hc hdec fe w m toks tail args hw hl ht hv out hout
    refine ⟨r, lines, hask, e, ?_⟩
    intro a ha hs hlev
    obtain ⟨line, hline, o, x, o1, o2, e'⟩ := forall2_pick k5 ((k1 a).mpr ⟨ha, hs, hlev, .inl hz⟩)
    exact ⟨line, hline, o, x, ⟨_, _, _, e'⟩, o1, o2⟩
  obtain ⟨r1, lines1, a1, e1, k1⟩ := key w1 l1 toks1 tail1 args1 hw1 hl1 ht1 hv hz1 out1 h1
  obtain ⟨r2, lines2, a2, e2, k2⟩ := key w2 l2 toks2 tail2 args2 hw2 hl2 ht2 (hsame ▸ hv) hz2 out2 h2
  refine ⟨r1, r2, lines1, lines2, a1, a2, e1, e2, ?_⟩
  intro a ha s1 s2 v1 v2
  refine ⟨_, _, k1 a ha s1 v1, ?_⟩
  rw [hsame]
  exact k2 a ha s2 v2

/-- The flags of the example: a level. -/
def levelFlags : FlagEnv := { int := fun s => if s = str "1" then some 1 else none, date := fun _ => none }

/-- Non-vacuity: the report of one level shows Assets as the report of all accounts below Assets does. -/
example : ∃ r1 r2 lines1 lines2, Asked (progAccts.map (·.fullName)) [] r1 ∧ Asked (progAccts.map (·.fullName)) [str "Assets"] r2 ∧
    str "  0.00 |   0.00 CAD | Root\n  0.00 |   6.50 CAD | Assets\n  3.50 |   3.50 CAD | Food\n-10.00 | -10.00 CAD | Unbalanced\n" = textOf lines1 ∧
    str "0.00 | 6.50 CAD | Assets\n6.50 | 6.50 CAD | Assets:Cash\n" = textOf lines2 ∧
    ∀ a ∈ progAccts.map (·.fullName), InSub r1 a → InSub r2 a → WithinLevel 1 a → WithinLevel 0 a →
      ∃ own cum, StandsWith progCad lines1 a own cum ∧ StandsWith progCad lines2 a own cum := by
  have hb : Written levelFlags (flagsOf .balance) (str "z", str "true") [str "-z"] := .bare (d := ['-']) (.inl rfl) (by decide)
  exact C198_same_numbers progInstall (fun _ => none) progState progAccts (progView fun _ => none) (prog_opens _).1 prog_plain progCad (prog_opens fun _ => none).2 (by decide)
    levelFlags (str "balance") (str "balance") [(str "z", str "true"), (str "l", str "1")] [(str "z", str "true")] [[str "-z"], [str "-l", str "1"]] [[str "-z"]] [] [str "Assets"]
    [] [str "Assets"] (by decide) (.cons hb (.cons (.next (d := ['-']) (name := str "l") (k := .int) (.inl rfl) (by decide) (by decide) (by decide)) .nil)) .nothing
    (by decide) (.cons hb .nil) (.plain (.inr (by decide))) rfl ⟨fun h => absurd (by decide +kernel) h, fun h => absurd (by decide +kernel) h⟩
    (by decide) (by decide) _ _ (ok_of_opt (by decide +kernel)) (ok_of_opt (by decide +kernel))

end Verif
