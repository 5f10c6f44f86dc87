import Verif.Props.TestCmd
/-
C92: the results written by the test command read back.
-/
namespace Verif

/-! ## Specification -/

/-- The items with the results that are missing filled in from the outputs of the tests, in order. -/
def fillItems : List Item → List Str → List Item
  | .test c r :: xs, o :: os => .test c (if r = [] then o else r) :: fillItems xs os
  | x :: xs, os => x :: fillItems xs os
  | [], _ => []

/-- An output made of whole lines, none of which reads as the end of a test. -/
def WholeLines (o : Str) : Prop := ∃ ls, o = textOf ls ∧ ∀ l ∈ ls, CleanLine l ∧ trimSpace l ≠ str "end test"

/-! ## Lemmas -/

/-- The lines with lines inserted after each; the lines are numbered from `first`. -/
def insertLines (first : Nat) (res : Nat → List Str) : List Str → List Str
  | [] => []
  | l :: ls => l :: res first ++ insertLines (first + 1) res ls

theorem textOf_append (a b : List Str) : textOf (a ++ b) = textOf a ++ textOf b := by simp [textOf]

theorem insertAfter_lines (res : Nat → List Str) (lines : List Str) : ∀ first, insertAfter first (fun i => textOf (res i)) lines = textOf (insertLines first res lines) := by
  induction lines with
  | nil => intro first; rfl
  | cons l ls ih =>
    intro first
    rw [insertAfter, insertLines, ih, show l :: res first ++ insertLines (first + 1) res ls = [l] ++ (res first ++ insertLines (first + 1) res ls) from rfl,
      textOf_append, textOf_append]
    simp [textOf]

theorem insertLines_mem {res : Nat → List Str} {lines : List Str} : ∀ {first : Nat} {l : Str}, l ∈ insertLines first res lines → l ∈ lines ∨ ∃ i, l ∈ res i := by
  induction lines with
  | nil => intro first l h; cases h
  | cons x ls ih =>
    intro first l h
    rw [insertLines] at h
    rcases List.mem_append.mp h with h | h
    · rcases List.mem_cons.mp h with rfl | h
      · exact .inl (by simp)
      · exact .inr ⟨_, h⟩
    · rcases ih h with h | h
      · exact .inl (by simp [h])
      · exact .inr h

theorem insertLines_head (first : Nat) (res : Nat → List Str) (lines : List Str) : (insertLines first res lines).head? = lines.head? := by
  cases lines <;> rfl

theorem insertLines_none {res : Nat → List Str} (a b : List Str) : ∀ {first : Nat}, (∀ i, first ≤ i → i < first + a.length → res i = []) →
    insertLines first res (a ++ b) = a ++ insertLines (first + a.length) res b := by
  induction a with
  | nil => intro first _; rfl
  | cons l a ih =>
    intro first h
    rw [List.cons_append, insertLines, h first (Nat.le_refl _) (by simp), ih (fun i h1 h2 => h i (by omega) (by simp; omega))]
    simp [Nat.add_assoc, Nat.add_comm 1]

theorem insertLines_nothing (lines : List Str) (first : Nat) : insertLines first (fun _ => []) lines = lines := by
  have := insertLines_none (res := fun _ => []) lines [] (first := first) (fun _ _ _ => rfl)
  simpa [insertLines] using this

/-- Lines that are skipped between items. -/
abbrev skipped (l : Str) : Bool := isBlank l || isComment l

theorem next_dropWhile (env : PEnv) (lines : List Str) : next env (lines.dropWhile skipped) = next env lines := by
  induction lines with
  | nil => rfl
  | cons l ls ih =>
    by_cases h : skipped l = true
    · rw [List.dropWhile_cons_of_pos h, next_skip env ls h, ih]
    · rw [List.dropWhile_cons_of_neg h]

theorem locate_skip {today : Today} {fn : Str} {total n : Nat} {st : LoadState} {line : Str} {rest : List Str} (h : skipped line = true) :
    locateTests today fn total n st (line :: rest) = locateTests today fn total n st rest := by
  cases n with
  | zero => rfl
  | succ n =>
    rw [locateTests, locateTests, next_skip _ rest h, List.dropWhile_cons_of_pos (by simpa [skipped] using h)]

/-- Where the tests of the last lines of a text are. -/
theorem locate_lines (today : Today) (fn : Str) (total : Nat) : ∀ (n : Nat) (st : LoadState) (L : List Str), L.length ≤ total →
    (∀ t ∈ locateTests today fn total n st L, t.file = fn ∧ total + 1 - L.length ≤ t.line ∧ t.line ≤ total) ∧
    (locateTests today fn total n st L).Pairwise (fun t u => t.line < u.line) := by
  intro n
  induction n with
  | zero => intro st L _; exact ⟨(by intro t ht; cases ht), List.Pairwise.nil⟩
  | succ n ih =>
    intro st L hL
    rw [locateTests]
    cases hx : next ⟨today, st.lookup, st.dflt⟩ L with
    | error f => exact ⟨(by intro t ht; cases ht), List.Pairwise.nil⟩
    | ok r =>
      obtain ⟨i, rest⟩ := r
      cases i with
      | none => exact ⟨(by intro t ht; cases ht), List.Pairwise.nil⟩
      | some i =>
        have hx' := hx
        rw [← next_dropWhile] at hx'
        have hl := (next_ok (known := fun _ => True) _ hx').2.1
        have hdw := List.length_dropWhile_le skipped L
        simp only
        have htail : (∀ t ∈ (match storeItem st i with | .error _ => ([] : List CTest) | .ok st => locateTests today fn total n st rest),
            t.file = fn ∧ total + 1 - rest.length ≤ t.line ∧ t.line ≤ total) ∧
            (match storeItem st i with | .error _ => ([] : List CTest) | .ok st => locateTests today fn total n st rest).Pairwise (fun (t u : CTest) => t.line < u.line) := by
          cases storeItem st i with
          | error => exact ⟨(by intro t ht; cases ht), List.Pairwise.nil⟩
          | ok st' => exact ih st' rest (by omega)
        have hhead : ∀ t ∈ (match i.1 with | .test cmd result => [(⟨cmd, result, total + 1 - (L.dropWhile skipped).length, fn⟩ : CTest)] | _ => []),
            t.file = fn ∧ t.line = total + 1 - (L.dropWhile skipped).length := by
          intro t ht
          split at ht
          · rw [List.mem_singleton.mp ht]; exact ⟨rfl, rfl⟩
          · cases ht
        refine ⟨?_, ?_⟩
        · intro t ht
          rcases List.mem_append.mp ht with ht | ht
          · obtain ⟨h1, h2⟩ := hhead t ht
            exact ⟨h1, by omega, by omega⟩
          · obtain ⟨h1, h2, h3⟩ := htail.1 t ht
            exact ⟨h1, by omega, h3⟩
        · rw [List.pairwise_append]
          refine ⟨?_, htail.2, ?_⟩
          · split
            · exact List.pairwise_singleton _ _
            · exact List.Pairwise.nil
          · intro t ht u hu
            have := (hhead t ht).2
            have := (htail.1 u hu).2.1
            omega

theorem storeItem_base {st st' : LoadState} {i : ItemD} (h : storeItem st i = .ok st') (b : List Item) :
    storeItem ⟨st.coms, st.dflt, b⟩ i = .ok ⟨st'.coms, st'.dflt, b ++ [i.1]⟩ := by
  unfold storeItem at h ⊢
  split at h
  · cases h; rfl
  · split at h
    · cases h
    · rename_i hne; cases h; simp only []; rw [if_neg hne]
  · cases h; rfl

theorem parseItem_not_test {env : PEnv} {line : Str} {rest : List Str} {r : ItemD × List Str} (hn : startsTest line = false)
    (h : parseItem env line rest = .ok r) (c o : Str) : r.1.1 ≠ .test c o := by
  unfold startsTest at hn
  unfold parseItem at h
  by_cases h1 : startsWith (str "include") line = true
  · rw [if_pos h1] at h
    obtain ⟨x, _, h⟩ := bind_ok.mp h; cases h; intro h; cases h
  rw [if_neg h1] at h
  by_cases h2 : startsWith (str "account") line = true
  · rw [if_pos h2] at h
    obtain ⟨x, _, h⟩ := bind_ok.mp h; cases h; intro h; cases h
  rw [if_neg h2] at h
  by_cases h3 : startsWith (str "commodity ") line = true
  · rw [if_pos h3] at h
    obtain ⟨x, _, h⟩ := bind_ok.mp h; cases h; intro h; cases h
  rw [if_neg h3] at h
  simp only [Bool.not_eq_true] at h1 h2 h3
  have h4 : ¬ startsWith (str "test ") line = true := by simpa [h1, h2, h3] using hn
  rw [if_neg h4] at h
  repeat' split at h
  all_goals first
    | cases h; done
    | (obtain ⟨x, _, h⟩ := bind_ok.mp h; cases h; intro h; cases h)

theorem fillItems_other {x : Item} (h : ∀ c o, x ≠ .test c o) (xs : List Item) (os : List Str) : fillItems (x :: xs) os = x :: fillItems xs os := by
  cases x <;> first | rfl | exact absurd rfl (h _ _)

theorem testLoop_text : ∀ (blk : List Str) (acc : Str) (e : Str) (T : List Str), (∀ l ∈ blk, trimSpace l ≠ str "end test") → trimSpace e = str "end test" →
    testLoop acc (blk ++ e :: T) = (acc ++ textOf blk, T) := by
  intro blk
  induction blk with
  | nil => intro acc e T _ he; rw [List.nil_append, testLoop, if_pos he]; simp [textOf]
  | cons l blk ih =>
    intro acc e T hb he
    rw [List.cons_append, testLoop, if_neg (hb l (by simp)), ih _ _ _ (fun x hx => hb x (by simp [hx])) he]
    simp [textOf]

theorem parse_test {env : PEnv} {line : Str} (ht : startsTest line = true) (rest : List Str) :
    parseItem env line rest = (parseTest line rest).bind fun r => .ok ((.test r.1.1 r.1.2, false), r.2) := by
  unfold startsTest at ht
  simp only [Bool.and_eq_true, Bool.not_eq_true'] at ht
  obtain ⟨⟨⟨h1, h2⟩, h3⟩, h4⟩ := ht
  unfold parseItem
  simp only [h1, h2, h3, h4]
  simp only [Bool.false_eq_true, if_false, if_true]

/-- A test with its end line. -/
theorem parse_test_ended {line : Str} {env : PEnv} (ht : startsTest line = true) {c : Caps} (hc : testRe.matches line = some c) (blk : List Str) (e : Str) (T : List Str)
    (hb : ∀ l ∈ blk, trimSpace l ≠ str "end test") (he : trimSpace e = str "end test") :
    parseItem env line (blk ++ e :: T) = .ok ((.test (c.get (str "1")) (textOf blk), false), T) := by
  rw [parse_test ht, parseTest, hc]
  simp only
  rw [testLoop_text blk [] e T hb he]
  rfl

theorem textOf_nil_iff (ls : List Str) : textOf ls = [] ↔ ls = [] := by
  cases ls <;> simp [textOf]

theorem drop_more {All pre L : List Str} {i : Nat} (h : All.drop i = pre ++ L) : All.drop (i + pre.length) = L := by
  rw [← List.drop_drop, h, List.drop_left]

/-- Loading the last lines of a text with the results inserted. `All` are the lines of the text, numbered from 1. -/
theorem load_filled (today : Today) (fn : Str) (All : List Str) (res : Nat → List Str) (hres : ∀ i, ∀ l ∈ res i, trimSpace l ≠ str "end test") :
    ∀ (m n : Nat) (L : List Str) (first : Nat) (st st1 : LoadState) (b : List Item) (os : List Str), L.length ≤ m → L.length < n →
    All.length + 1 = first + L.length → 1 ≤ first → All.drop (first - 1) = L →
    loadL today st L = .ok st1 →
    (∀ i, first ≤ i → res i ≠ [] → ∃ t ∈ locateTests today fn All.length n st L, t.line = i ∧ t.result = []) →
    (∀ t ∈ locateTests today fn All.length n st L, t.result = [] → ∃ e ∈ All.drop t.line, trimSpace e = str "end test") →
    (locateTests today fn All.length n st L).length = os.length →
    (∀ p ∈ (locateTests today fn All.length n st L).zip os, p.1.result = [] → textOf (res p.1.line) = p.2) →
    ∃ xs, st1.items = st.items ++ xs ∧ loadL today ⟨st.coms, st.dflt, b⟩ (insertLines first res L) = .ok ⟨st1.coms, st1.dflt, b ++ fillItems xs os⟩ := by
  intro m
  induction m with
  | zero =>
    intro n L first st st1 b os hm hn hlen hf hdrop hload _ _ hos _
    obtain rfl : L = [] := List.length_eq_zero_iff.mp (by omega)
    cases hload
    exact ⟨[], by simp, by simp [insertLines, loadL, loadLines, next, fillItems]⟩
  | succ m ih =>
    intro n L first st st1 b os hm hn hlen hf hdrop hload hri hend hos hzip
    cases L with
    | nil =>
      cases hload
      exact ⟨[], by simp, by simp [insertLines, loadL, loadLines, next, fillItems]⟩
    | cons line rest =>
      simp only [List.length_cons] at hm hn hlen
      have hdrop1 : All.drop first = rest := by
        have := drop_more (pre := [line]) (L := rest) (i := first - 1) hdrop
        rw [← this]; congr 1; simp; omega
      by_cases hs : skipped line = true
      · rw [locate_skip hs] at hri hend hos hzip
        have hge := (locate_lines today fn All.length n st rest (by omega)).1
        have hr0 : res first = [] := by
          by_contra hne
          obtain ⟨t, ht, e, _⟩ := hri first (Nat.le_refl _) hne
          have := (hge t ht).2.1
          omega
        obtain ⟨xs, h1, h2⟩ := ih n rest (first + 1) st st1 b os (by omega) (by omega) (by omega) (by omega) (by simpa using hdrop1)
          (by rw [loadL_skip _ _ _ hs] at hload; exact hload)
          (fun i hi => hri i (by omega)) hend hos hzip
        refine ⟨xs, h1, ?_⟩
        rw [insertLines, hr0]
        show loadL today _ (line :: insertLines (first + 1) res rest) = _
        rw [loadL_skip _ _ _ hs, h2]
      · -- an item
        obtain ⟨n, rfl⟩ : ∃ k, n = k + 1 := ⟨n - 1, by omega⟩
        rw [loadL_eq, next_item _ _ hs] at hload
        cases hx : parseItem ⟨today, st.lookup, st.dflt⟩ line rest with
        | error f => rw [hx] at hload; cases f <;> cases hload
        | ok x =>
          rw [hx] at hload
          replace hload : (storeItem st x.1).bind (fun st => loadL today st x.2) = .ok st1 := hload
          obtain ⟨st', hst, hload⟩ := bind_ok.mp hload
          have hloc : locateTests today fn All.length (n + 1) st (line :: rest) =
              (match x.1.1 with | .test cmd result => [(⟨cmd, result, All.length + 1 - (line :: rest).length, fn⟩ : CTest)] | _ => []) ++
                locateTests today fn All.length n st' x.2 := by
            rw [locateTests, next_item _ _ hs, hx]
            simp only [Except.bind]
            rw [hst, List.dropWhile_cons_of_neg (by simpa [skipped] using hs)]
            congr 1
          have hfirst : All.length + 1 - (line :: rest).length = first := by simp; omega
          rw [hfirst] at hloc
          rw [hloc] at hri hend hos hzip
          -- the rest of the lines after this item
          have finish : ∀ (pre : List Str) (item : Item) (os' : List Str), rest = pre ++ x.2 →
              (∀ i, first + 1 + pre.length ≤ i → res i ≠ [] → ∃ t ∈ locateTests today fn All.length n st' x.2, t.line = i ∧ t.result = []) →
              (∀ t ∈ locateTests today fn All.length n st' x.2, t.result = [] → ∃ e ∈ All.drop t.line, trimSpace e = str "end test") →
              (locateTests today fn All.length n st' x.2).length = os'.length →
              (∀ p ∈ (locateTests today fn All.length n st' x.2).zip os', p.1.result = [] → textOf (res p.1.line) = p.2) →
              ∃ xs, st1.items = st'.items ++ xs ∧ loadL today ⟨st'.coms, st'.dflt, b ++ [item]⟩ (insertLines (first + 1 + pre.length) res x.2) =
                .ok ⟨st1.coms, st1.dflt, (b ++ [item]) ++ fillItems xs os'⟩ := by
            intro pre item os' hpre a1 a2 a3 a4
            have hpl : rest.length = pre.length + x.2.length := by rw [hpre]; simp
            refine ih n x.2 (first + 1 + pre.length) st' st1 (b ++ [item]) os' (by omega) (by omega) (by omega) (by omega) ?_ hload a1 a2 a3 a4
            rw [show first + 1 + pre.length - 1 = first + pre.length by omega]
            exact drop_more (hdrop1.trans hpre)
          have hge : ∀ (pre : List Str), rest = pre ++ x.2 → ∀ t ∈ locateTests today fn All.length n st' x.2, first + 1 + pre.length ≤ t.line := by
            intro pre hpre t ht
            have hpl : rest.length = pre.length + x.2.length := by rw [hpre]; simp
            have := ((locate_lines today fn All.length n st' x.2 (by omega)).1 t ht).2.1
            omega
          by_cases ht : startsTest line = true
          · -- a test
            obtain ⟨c, hc⟩ : ∃ c, testRe.matches line = some c := by
              rw [parse_test ht, parseTest] at hx
              cases hm : testRe.matches line with
              | none => rw [hm] at hx; cases hx
              | some c => exact ⟨c, rfl⟩
            cases hsp : testSplit rest with
            | none =>
              -- without end
              exfalso
              have hnone : ∀ l ∈ rest, trimSpace l ≠ str "end test" := by
                intro l hl he
                obtain ⟨p, hp⟩ := testSplit_total ⟨l, hl, he⟩
                rw [hsp] at hp; cases hp
              have htl : ∀ (l : List Str) (acc : Str), (∀ y ∈ l, trimSpace y ≠ str "end test") → testLoop acc l = ([], []) := by
                intro l
                induction l with
                | nil => intro acc _; rfl
                | cons y l ihl => intro acc h; rw [testLoop, if_neg (h y (by simp))]; exact ihl _ (fun z hz => h z (by simp [hz]))
              have hxv : x = ((.test (c.get (str "1")) [], false), []) := by
                rw [parse_test ht, parseTest, hc] at hx
                simp only at hx
                rw [htl rest [] hnone] at hx
                cases hx; rfl
              rw [hxv] at hend
              obtain ⟨e, he1, he2⟩ := hend ⟨c.get (str "1"), [], first, fn⟩ (by simp) rfl
              simp only at he1
              rw [hdrop1] at he1
              exact hnone e he1 he2
            | some p =>
              obtain ⟨blk, e, h1, h2, h3, h4⟩ := testSplit_spec hsp
              obtain ⟨p1, T⟩ := p
              simp only at h1 h2
              have hxv : x = ((.test (c.get (str "1")) (textOf blk), false), T) := by
                rw [h2, parse_test_ended ht hc blk e T h3 h4] at hx
                cases hx; rfl
              subst hxv
              simp only at hri hend hos hzip hge finish hload
              rw [List.singleton_append] at hri hend hos hzip
              have hrest : rest = (blk ++ [e]) ++ T := by rw [h2]; simp
              cases os with
              | nil => simp at hos
              | cons o os =>
                simp only [List.length_cons, Nat.add_right_cancel_iff] at hos
                rw [List.zip_cons_cons] at hzip
                obtain ⟨xs, g1, g2⟩ := finish (blk ++ [e]) (.test (c.get (str "1")) (if textOf blk = [] then o else textOf blk)) os hrest
                  (by
                    intro i hi hne
                    obtain ⟨t, ht', e1, e2⟩ := hri i (by omega) hne
                    rcases List.mem_cons.mp ht' with rfl | ht'
                    · simp only at e1; omega
                    · exact ⟨t, ht', e1, e2⟩)
                  (fun t ht' => hend t (List.mem_cons_of_mem _ ht')) hos (fun p hp => hzip p (List.mem_cons_of_mem _ hp))
                refine ⟨.test (c.get (str "1")) (textOf blk) :: xs, by rw [g1, storeItem_items hst]; simp, ?_⟩
                have hmid : ∀ i, first + 1 ≤ i → i < first + 1 + (blk ++ [e]).length → res i = [] := by
                  intro i h1 h2
                  by_contra hne
                  obtain ⟨t, ht', e1, e2⟩ := hri i (by omega) hne
                  rcases List.mem_cons.mp ht' with rfl | ht'
                  · simp only at e1; omega
                  · have := hge (blk ++ [e]) hrest t ht'; omega
                have hstore : ∀ r, storeItem ⟨st.coms, st.dflt, b⟩ (.test (c.get (str "1")) r, false) = .ok ⟨st'.coms, st'.dflt, b ++ [.test (c.get (str "1")) r]⟩ := by
                  intro r
                  have hb := storeItem_base hst b
                  unfold storeItem at hb ⊢
                  simp only [Except.ok.injEq, LoadState.mk.injEq] at hb ⊢
                  exact ⟨hb.1, hb.2.1, trivial⟩
                -- the new lines of the test
                have key : ∀ (body : List Str), (∀ l ∈ body, trimSpace l ≠ str "end test") →
                    insertLines first res (line :: rest) = line :: (body ++ e :: insertLines (first + 1 + (blk ++ [e]).length) res T) →
                    textOf body = (if textOf blk = [] then o else textOf blk) →
                    loadL today ⟨st.coms, st.dflt, b⟩ (insertLines first res (line :: rest)) =
                      .ok ⟨st1.coms, st1.dflt, b ++ fillItems (.test (c.get (str "1")) (textOf blk) :: xs) (o :: os)⟩ := by
                  intro body hbody hins htext
                  rw [hins, loadL_eq, next_item _ _ hs, parse_test_ended ht hc body e _ hbody h4]
                  show (storeItem ⟨st.coms, st.dflt, b⟩ (.test (c.get (str "1")) (textOf body), false)).bind (fun st => loadL today st _) = _
                  rw [hstore]
                  show loadL today _ _ = _
                  rw [htext, g2, fillItems]
                  simp
                by_cases hblk : blk = []
                · subst hblk
                  refine key (res first) (fun l hl => hres first l hl) ?_ ?_
                  · rw [insertLines, hrest, insertLines_none _ _ hmid]; simp
                  · rw [if_pos (show textOf [] = [] from rfl)]
                    have := hzip _ (List.mem_cons_self ..)
                    exact this rfl
                · refine key blk h3 ?_ ?_
                  · have hr0 : res first = [] := by
                      by_contra hne
                      obtain ⟨t, ht', e1, e2⟩ := hri first (Nat.le_refl _) hne
                      rcases List.mem_cons.mp ht' with rfl | ht'
                      · exact hblk ((textOf_nil_iff _).mp e2)
                      · have := hge (blk ++ [e]) hrest t ht'; omega
                    rw [insertLines, hr0, hrest, insertLines_none _ _ hmid]; simp
                  · rw [if_neg (fun hh => hblk ((textOf_nil_iff _).mp hh))]
          · -- another item
            simp only [Bool.not_eq_true] at ht
            have hnt := parseItem_not_test ht hx
            have hx2 := item_rest ht hx
            have hrest : rest = rest.takeWhile (continuesItem line) ++ x.2 := by rw [hx2, List.takeWhile_append_dropWhile]
            have hnil : (match x.1.1 with | .test cmd result => [(⟨cmd, result, first, fn⟩ : CTest)] | _ => []) = [] := by
              split
              · rename_i h; exact absurd h (hnt _ _)
              · rfl
            rw [hnil, List.nil_append] at hri hend hos hzip
            obtain ⟨xs, g1, g2⟩ := finish _ x.1.1 os hrest (fun i hi => hri i (by omega)) hend hos hzip
            refine ⟨x.1.1 :: xs, by rw [g1, storeItem_items hst]; simp, ?_⟩
            have hmid : ∀ i, first ≤ i → i < first + (line :: rest.takeWhile (continuesItem line)).length → res i = [] := by
              intro i h1 h2
              by_contra hne
              obtain ⟨t, ht', e1, e2⟩ := hri i h1 hne
              have := hge _ hrest t ht'
              simp only [List.length_cons] at h2
              omega
            have hins : insertLines first res (line :: rest) = line :: (rest.takeWhile (continuesItem line) ++
                insertLines (first + 1 + (rest.takeWhile (continuesItem line)).length) res x.2) := by
              conv_lhs => rw [hrest, ← List.cons_append, insertLines_none _ _ hmid]
              simp only [List.cons_append, List.length_cons]
              rw [show first + ((rest.takeWhile (continuesItem line)).length + 1) = first + 1 + (rest.takeWhile (continuesItem line)).length by omega]
            have hpar : parseItem ⟨today, st.lookup, st.dflt⟩ line (rest.takeWhile (continuesItem line)) = .ok (x.1, []) ∨
                ∃ y, parseItem ⟨today, st.lookup, st.dflt⟩ line (rest.takeWhile (continuesItem line)) = .ok y ∧ y.1 = x.1 := by
              right
              have h' := hx
              rw [← List.takeWhile_append_dropWhile (p := continuesItem line) (l := rest),
                parseItem_append _ line _ _ ht (fun l hl => List.mem_takeWhile_imp hl) (dropWhile_head _ _)] at h'
              obtain ⟨y, hy, h'⟩ := bind_ok.mp h'
              cases h'
              exact ⟨y, hy, rfl⟩
            obtain ⟨y, hy, hy1⟩ : ∃ y, parseItem ⟨today, st.lookup, st.dflt⟩ line (rest.takeWhile (continuesItem line)) = .ok y ∧ y.1 = x.1 := by
              rcases hpar with h | h
              · exact ⟨_, h, rfl⟩
              · exact h
            rw [hins, loadL_eq, next_item _ _ hs]
            have e : parseItem ⟨today, LoadState.lookup ⟨st.coms, st.dflt, b⟩, st.dflt⟩ line (rest.takeWhile (continuesItem line) ++
                insertLines (first + 1 + (rest.takeWhile (continuesItem line)).length) res x.2) =
                .ok (x.1, insertLines (first + 1 + (rest.takeWhile (continuesItem line)).length) res x.2) := by
              rw [parseItem_append _ line _ _ ht (fun l hl => List.mem_takeWhile_imp hl) (by
                rw [insertLines_head, hx2]; exact dropWhile_head _ _)]
              show (parseItem ⟨today, st.lookup, st.dflt⟩ line (rest.takeWhile (continuesItem line))).bind _ = _
              rw [hy]
              show Except.ok (y.1, _) = _
              rw [hy1]
            rw [e]
            show (storeItem ⟨st.coms, st.dflt, b⟩ x.1).bind (fun st => loadL today st _) = _
            rw [storeItem_base hst b]
            show loadL today _ _ = _
            rw [g2, fillItems_other hnt]
            simp

theorem missing_at {f : Str} : ∀ {ts : List CTest} {os : List Str}, (∀ t ∈ ts, t.file = f) → ts.Pairwise (fun t u => t.line < u.line) →
    ∀ p ∈ ts.zip os, p.1.result = [] → missingAt f ts os p.1.line = p.2 := by
  intro ts
  induction ts with
  | nil => intro os _ _ p hp; simp at hp
  | cons t ts ih =>
    intro os hf hpw p hp hr
    cases os with
    | nil => simp at hp
    | cons o os =>
      rw [List.zip_cons_cons] at hp
      rw [missingAt_cons]
      have hpw' := List.pairwise_cons.mp hpw
      rcases List.mem_cons.mp hp with rfl | hp
      · rw [if_pos ⟨hf t (by simp), rfl, hr⟩]
        have : missingAt f ts os t.line = [] := by
          unfold missingAt
          rw [List.flatten_eq_nil_iff]
          intro x hx
          obtain ⟨q, hq, rfl⟩ := List.mem_map.mp hx
          have := hpw'.1 q.1 (List.of_mem_zip hq).1
          rw [if_neg (by omega)]
        simp [this]
      · have := hpw'.1 p.1 (List.of_mem_zip hp).1
        rw [if_neg (by omega), ih (fun t ht => hf t (by simp [ht])) hpw'.2 p hp hr]; rfl

theorem missing_some {f : Str} {ts : List CTest} {os : List Str} (hpw : ts.Pairwise (fun t u => t.line < u.line)) (hf : ∀ t ∈ ts, t.file = f) {i : Nat} (h : missingAt f ts os i ≠ []) :
    ∃ p ∈ ts.zip os, p.1.line = i ∧ p.1.result = [] ∧ missingAt f ts os i = p.2 := by
  have hex : ∃ p ∈ ts.zip os, p.1.line = i ∧ p.1.result = [] := by
    by_contra hn
    refine h ?_
    unfold missingAt
    rw [List.flatten_eq_nil_iff]
    intro x hx
    obtain ⟨p, hp, rfl⟩ := List.mem_map.mp hx
    rw [if_neg]
    rintro ⟨_, h1, h2⟩
    exact hn ⟨p, hp, h1, h2⟩
  obtain ⟨p, hp, h1, h2⟩ := hex
  exact ⟨p, hp, h1, h2, by rw [← h1]; exact missing_at hf hpw p hp h2⟩

/-! ## C92 -/

/-- Full statement of C92: the tests of a file that loads are run, and their commands complete. Then loading the file again gives the same
items, each test without result now having its output as result. -/
def C92_Statement : Prop := ∀ (env : TestEnv) (v : Bool) (d : Dir) (today : Today) (st st1 : LoadState) (fn text : Str) (os : List Str),
  ':' ∉ fn → d fn = some text → loadText today st text = .ok st1 → (∀ l ∈ scanLines text, CleanLine l) →
  Outputs env 0 (testsOf today fn st text) os → (∀ o ∈ os, WholeLines o) →
  ∃ r text' xs, testExecute env v d (testsOf today fn st text) = .ok r ∧ r.files fn = some text' ∧ st1.items = st.items ++ xs ∧
    loadText today st text' = .ok ⟨st1.coms, st1.dflt, st.items ++ fillItems xs os⟩

/-- **C92 (partial)** True if every test without result has its end line. Missing: the others, see below. -/
theorem C92_fills_in_partial (env : TestEnv) (v : Bool) (d : Dir) (today : Today) (st st1 : LoadState) (fn text : Str) (os : List Str)
    (hc : ':' ∉ fn) (hd : d fn = some text) (hload : loadText today st text = .ok st1) (hclean : ∀ l ∈ scanLines text, CleanLine l)
    (ho : Outputs env 0 (testsOf today fn st text) os) (hw : ∀ o ∈ os, WholeLines o)
    (hend : ∀ t ∈ testsOf today fn st text, t.result = [] → ∃ e ∈ (scanLines text).drop t.line, trimSpace e = str "end test") :
    ∃ r text' xs, testExecute env v d (testsOf today fn st text) = .ok r ∧ r.files fn = some text' ∧ st1.items = st.items ++ xs ∧
      loadText today st text' = .ok ⟨st1.coms, st1.dflt, st.items ++ fillItems xs os⟩ := by
  have hlen := outputs_length ho
  obtain ⟨hl1, hl2⟩ := locate_lines today fn (scanLines text).length ((scanLines text).length + 1) st (scanLines text) (Nat.le_refl _)
  have hfile : ∀ t ∈ testsOf today fn st text, t.file = fn := fun t ht => (hl1 t ht).1
  replace hl2 : (testsOf today fn st text).Pairwise (fun t u => t.line < u.line) := hl2
  obtain ⟨r, hr, hfiles⟩ := C93_results_partial env v d (testsOf today fn st text) os ho (by
    intro t ht
    rw [hfile t ht]
    refine ⟨hc, text, hd, ?_⟩
    rw [List.filter_eq_self.mpr (fun u hu => by simp [hfile u hu])]
    refine ⟨fun u hu => ?_, hl2⟩
    obtain ⟨a, b, c⟩ := hl1 u hu
    exact ⟨a, by omega, c⟩) (by
    intro a t b u c w e h hh
    have m1 : u ∈ testsOf today fn st text := by rw [h]; simp
    have m2 : t ∈ testsOf today fn st text := by rw [h]; simp
    rw [hfile u m1, hfile t m2])
  have core := fun res h => load_filled today fn (scanLines text) res h (scanLines text).length ((scanLines text).length + 1) (scanLines text) 1 st st1 st.items os
    (Nat.le_refl _) (Nat.lt_succ_self _) (by omega) (Nat.le_refl _) (by simp) hload
  by_cases hex : ∃ t ∈ testsOf today fn st text, t.file = fn ∧ t.result = []
  · -- some result is missing
    classical
    let res : Nat → List Str := fun i => if h : WholeLines (missingAt fn (testsOf today fn st text) os i) then h.choose else []
    have hres : ∀ i, textOf (res i) = missingAt fn (testsOf today fn st text) os i ∧ ∀ l ∈ res i, CleanLine l ∧ trimSpace l ≠ str "end test" := by
      intro i
      have hwl : WholeLines (missingAt fn (testsOf today fn st text) os i) := by
        by_cases hm : missingAt fn (testsOf today fn st text) os i = []
        · rw [hm]; exact ⟨[], rfl, by simp⟩
        · obtain ⟨p, hp, _, _, e⟩ := missing_some hl2 hfile hm
          rw [e]; exact hw _ (List.of_mem_zip hp).2
      have := hwl.choose_spec
      simp only [res, dif_pos hwl]
      exact ⟨this.1.symm, this.2⟩
    obtain ⟨xs, h1, h2⟩ := core res (fun i l hl => ((hres i).2 l hl).2)
      (by
        intro i _ hne
        have hm : missingAt fn (testsOf today fn st text) os i ≠ [] := by
          rw [← (hres i).1]
          exact fun h => hne ((textOf_nil_iff _).mp h)
        obtain ⟨p, hp, a, b, _⟩ := missing_some hl2 hfile hm
        exact ⟨p.1, (List.of_mem_zip hp).1, a, b⟩)
      hend hlen
      (by
        intro p hp hpr
        rw [(hres _).1]
        exact missing_at hfile hl2 p hp hpr)
    refine ⟨r, insertAfter 1 (missingAt fn (testsOf today fn st text) os) (scanLines text), xs, hr, ?_, h1, ?_⟩
    · rw [hfiles fn]; unfold filled; rw [if_pos hex, hd]; rfl
    · have e : missingAt fn (testsOf today fn st text) os = fun i => textOf (res i) := funext fun i => ((hres i).1).symm
      rw [e, insertAfter_lines]
      unfold loadText
      rw [scanLines_textOf (by
        intro l hl
        rcases insertLines_mem hl with hl | ⟨i, hl⟩
        · exact hclean l hl
        · exact ((hres i).2 l hl).1)]
      exact h2
  · obtain ⟨xs, h1, h2⟩ := core (fun _ => []) (by simp) (by intro i _ h; exact absurd rfl h) hend hlen (by
      intro p hp hpr
      exact absurd ⟨p.1, (List.of_mem_zip hp).1, hfile _ (List.of_mem_zip hp).1, hpr⟩ hex)
    refine ⟨r, text, xs, hr, ?_, h1, ?_⟩
    · rw [hfiles fn]; unfold filled; rw [if_neg hex, hd]
    · rw [insertLines_nothing] at h2
      exact h2

/-- Non-vacuity: a file with two tests, one without result. -/
def exTestFile : Str := str "test x\nend test\n\ntest y\n1\nend test\n"
example : testsOf ⟨2020, 1, 1⟩ (str "a") ⟨[], [], []⟩ exTestFile = [⟨str "x", [], 1, str "a"⟩, ⟨str "y", str "1\n", 4, str "a"⟩] := by decide +kernel
example : WholeLines (str "1\n") := ⟨[str "1"], rfl, by intro l hl; rw [List.mem_singleton.mp hl]; exact ⟨⟨by unfold noNl; decide, by decide⟩, by decide⟩⟩
example : (testExecute exTestEnv false (fun _ => some exTestFile) (testsOf ⟨2020, 1, 1⟩ (str "a") ⟨[], [], []⟩ exTestFile)).toOption.map (fun r => r.files (str "a")) =
    some (some (str "test x\n1\nend test\n\ntest y\n1\nend test\n")) := by decide +kernel

deriving instance DecidableEq for LoadState

def exOpenTest : Str := str "test x\n"

/-- **C92 is false** of the code for a test without end line: the output is written, but not read back as its result, so every run of the
command writes it again. -/
theorem C92_fills_in_violated : ¬ C92_Statement := by
  intro hst
  have hts : testsOf ⟨2020, 1, 1⟩ (str "a") ⟨[], [], []⟩ exOpenTest = [⟨str "x", [], 1, str "a"⟩] := by decide +kernel
  have hl : scanLines exOpenTest = [str "test x"] := by decide +kernel
  obtain ⟨r, text', xs, h1, h2, h3, h4⟩ := hst exTestEnv false (fun _ => some exOpenTest) ⟨2020, 1, 1⟩ ⟨[], [], []⟩ ⟨[], [], [.test (str "x") []]⟩ (str "a") exOpenTest [str "1\n"]
    (by decide) rfl (by decide +kernel) (by
      rw [hl]; intro l h; rw [List.mem_singleton.mp h]; exact ⟨by unfold noNl; decide, by decide⟩) (by
      rw [hts]; exact ⟨⟨str "x", [], by decide +kernel, rfl, rfl⟩, trivial⟩)
    (by
      intro o ho
      rw [List.mem_singleton.mp ho]
      exact ⟨[str "1"], rfl, by intro l hl; rw [List.mem_singleton.mp hl]; exact ⟨⟨by unfold noNl; decide, by decide⟩, by decide⟩⟩)
  simp only [List.nil_append] at h3
  rw [hts] at h1
  have hr : (testExecute exTestEnv false (fun _ => some exOpenTest) [⟨str "x", [], 1, str "a"⟩]).toOption.map (fun r => r.files (str "a")) =
    some (some (str "test x\n1\n")) := by decide +kernel
  rw [h1] at hr
  simp only [Except.toOption, Option.map_some, Option.some.injEq, h2] at hr
  subst hr
  have hn : (loadText ⟨2020, 1, 1⟩ ⟨[], [], []⟩ (str "test x\n1\n")).toOption.map (fun s => s.items) = some [.test (str "x") []] := by decide +kernel
  rw [h4] at hn
  simp only [Except.toOption, Option.map_some, Option.some.injEq, List.nil_append, ← h3] at hn
  exact absurd hn (by decide)

end Verif
