import Verif.Model.Bmo
import Verif.Props.CsvRules
/-
C102: the repaired bank statement.
-/
namespace Verif

/-! ## C102: what ofx2coin -bmo reads -/

/-- The lines of a repaired statement: the empty lines at the start are dropped; an empty line is put before `<OFX>` if there is none
in the header; after `<OFX>` the two invalid lines are dropped. -/
def repaired (ls : List Str) : List Str :=
  let ls := ls.dropWhile (fun l => decide (l = []))
  let header := ls.takeWhile (fun l => decide (l ≠ str "<OFX>"))
  match ls.dropWhile (fun l => decide (l ≠ str "<OFX>")) with
  | [] => header
  | ofx :: body => header ++ (if [] ∈ header then [] else [[]]) ++
      ofx :: body.filter (fun l => decide (l ≠ str "<BANKMSGSET><BANKMSGSETV1>" ∧ l ≠ str "<BANKMSGSETV1><BANKMSGSET>"))

/-- Full statement of C102: whatever the sizes of the buffers, reading a statement gives the repaired lines, and an ordinary last line
without line feed as it is. -/
def C102_Statement : Prop := ∀ (ls : List Str) (last : Str) (size : Nat → Nat), (∀ l ∈ ls, '\n' ∉ l) → '\n' ∉ last →
  (last = [] ∨ repaired (ls ++ [last]) = repaired ls ++ [last]) → (∀ k, 0 < size k) →
  ∃ n, bmoReadAll size n 0 (newBmo (textOf ls ++ last)) = some (textOf (repaired ls) ++ last)

/-! ### Reading does not depend on the buffers -/

/-- What is still to be read, as lines. -/
def bmoLines (header body empty : Bool) : List Str → List Str
  | [] => []
  | l :: rest =>
    if !header && decide (l = []) then bmoLines header body empty rest
    else if !body then
      if l = str "<OFX>" then (if empty then [] else [[]]) ++ l :: bmoLines true true empty rest
      else l :: bmoLines true body (empty || decide (l = [])) rest
    else if l = str "<BANKMSGSET><BANKMSGSETV1>" ∨ l = str "<BANKMSGSETV1><BANKMSGSET>" then bmoLines true body empty rest
    else l :: bmoLines true body empty rest

def Bmo.remaining (r : Bmo) : Str := r.lastLine ++ textOf (bmoLines r.reachedHeader r.reachedBody r.emptyLineAfterHeader r.src.dropLast)

theorem snoc_inj {a b : Str} {c : Char} : a ++ [c] = b ++ [c] ↔ a = b := by simp

theorem line_is (l : Str) (s : String) (t : Str) (h : str s = t ++ ['\n']) : l ++ ['\n'] = str s ↔ l = t := by rw [h, snoc_inj]

theorem ignore_iff (l : Str) : bmoIgnore.contains (l ++ ['\n']) = true ↔ (l = str "<BANKMSGSET><BANKMSGSETV1>" ∨ l = str "<BANKMSGSETV1><BANKMSGSET>") := by
  unfold bmoIgnore
  simp only [List.contains_eq_mem, List.mem_cons, List.not_mem_nil, or_false, decide_eq_true_eq]
  rw [line_is l _ (str "<BANKMSGSET><BANKMSGSETV1>") (by decide), line_is l _ (str "<BANKMSGSETV1><BANKMSGSET>") (by decide)]

theorem textOf_cons (l : Str) (ls : List Str) : textOf (l :: ls) = (l ++ ['\n']) ++ textOf ls := by unfold textOf; rw [List.flatMap_cons]
theorem textOf_nil : textOf [] = [] := rfl

/-- A measure of the calls left. -/
def linesWork (src : List Str) : Nat := (src.map (fun l => l.length + 2)).sum
def Bmo.work (r : Bmo) : Nat := r.lastLine.length + linesWork r.src

theorem linesWork_cons (l : Str) (ls : List Str) : linesWork (l :: ls) = l.length + 2 + linesWork ls := by simp [linesWork]

theorem bmoLoop_spec (header body empty : Bool) (src : List Str) :
    match bmoLoop header body empty src with
    | none => bmoLines header body empty src.dropLast = []
    | some (inj, r) => r.lastLine ≠ [] ∧ textOf (bmoLines header body empty src.dropLast) = (if inj then ['\n'] else []) ++ r.remaining ∧ r.work < linesWork src := by
  fun_induction bmoLoop header body empty src with
  | case1 => rfl
  | case2 => rfl
  | case3 header l next rest h ih =>
    simp only [Bool.and_eq_true, Bool.not_eq_true', decide_eq_true_eq] at h
    have hl : l = [] := by simpa using h.2
    have e : bmoLines header body empty (l :: next :: rest).dropLast = bmoLines header body empty (next :: rest).dropLast := by
      rw [List.dropLast_cons₂, bmoLines, if_pos (by simp [h.1, hl])]
    rw [e]
    revert ih
    cases bmoLoop header body empty (next :: rest) with
    | none => exact id
    | some o => intro ih; exact ⟨ih.1, ih.2.1, by have := ih.2.2; rw [linesWork_cons]; omega⟩
  | case4 header l next rest h hb ho =>
    rw [line_is l _ (str "<OFX>") (by decide)] at ho
    have hl : l ≠ [] := by rw [ho]; decide
    refine ⟨by simp, ?_, by rw [linesWork_cons]; simp [Bmo.work]⟩
    rw [List.dropLast_cons₂, bmoLines, if_neg (by simp [hl]), if_pos hb, if_pos ho]
    unfold Bmo.remaining
    cases empty
    · simp [textOf_cons]
    · simp [textOf_cons]
  | case5 header l next rest h hb ho =>
    rw [line_is l _ (str "<OFX>") (by decide)] at ho
    refine ⟨by simp, ?_, by rw [linesWork_cons]; simp [Bmo.work]⟩
    have e : decide (l ++ ['\n'] = ['\n']) = decide (l = []) := by simp
    rw [e] at h ⊢
    rw [List.dropLast_cons₂, bmoLines, if_neg h, if_pos hb, if_neg ho]
    unfold Bmo.remaining
    simp [textOf_cons]
  | case6 header l next rest h hb hi ih =>
    have e : decide (l ++ ['\n'] = ['\n']) = decide (l = []) := by simp
    rw [e] at h
    have e : bmoLines header body empty (l :: next :: rest).dropLast = bmoLines true body empty (next :: rest).dropLast := by
      rw [List.dropLast_cons₂, bmoLines, if_neg h, if_neg hb, if_pos ((ignore_iff l).mp hi)]
    rw [e]
    revert ih
    cases bmoLoop true body empty (next :: rest) with
    | none => exact id
    | some o => intro ih; exact ⟨ih.1, ih.2.1, by have := ih.2.2; rw [linesWork_cons]; omega⟩
  | case7 header l next rest h hb hi =>
    have e : decide (l ++ ['\n'] = ['\n']) = decide (l = []) := by simp
    rw [e] at h
    refine ⟨by simp, ?_, by rw [linesWork_cons]; simp [Bmo.work]⟩
    rw [List.dropLast_cons₂, bmoLines, if_neg h, if_neg hb, if_neg (fun hc => hi ((ignore_iff l).mpr hc))]
    unfold Bmo.remaining
    simp [textOf_cons]

theorem bmoCopy_spec (p : Nat) (r : Bmo) (hp : 0 < p) (h : r.lastLine ≠ []) :
    (bmoCopy p r).1 ++ (bmoCopy p r).2.remaining = r.remaining ∧ (bmoCopy p r).2.work < r.work := by
  unfold bmoCopy Bmo.remaining Bmo.work
  have hl := List.length_pos_iff.mpr h
  constructor
  · simp only
    rw [← List.append_assoc, List.take_append_drop]
  · simp only [List.length_drop]
    omega

theorem bmoRead_spec (p : Nat) (r : Bmo) (hp : 0 < p) :
    match bmoRead p r with
    | none => r.remaining = []
    | some (s, r') => s ++ r'.remaining = r.remaining ∧ r'.work < r.work := by
  unfold bmoRead
  by_cases h : r.lastLine = []
  · rw [if_pos h]
    have hs := bmoLoop_spec r.reachedHeader r.reachedBody r.emptyLineAfterHeader r.src
    have hr : r.remaining = textOf (bmoLines r.reachedHeader r.reachedBody r.emptyLineAfterHeader r.src.dropLast) := by
      unfold Bmo.remaining; rw [h]; rfl
    have hw : r.work = linesWork r.src := by unfold Bmo.work; rw [h]; simp
    rw [hr, hw]
    cases hl : bmoLoop r.reachedHeader r.reachedBody r.emptyLineAfterHeader r.src with
    | none => rw [hl] at hs; simp only at hs ⊢; rw [hs]; rfl
    | some o =>
      obtain ⟨inj, r'⟩ := o
      rw [hl] at hs
      simp only at hs
      obtain ⟨h1, h2, h3⟩ := hs
      cases inj with
      | true =>
        simp only
        refine ⟨?_, h3⟩
        rw [h2]
        cases p with
        | zero => omega
        | succ p => simp
      | false =>
        simp only
        have hc := bmoCopy_spec p r' hp h1
        rw [h2]
        exact ⟨by simpa using hc.1, by omega⟩
  · rw [if_neg h]
    exact bmoCopy_spec p r hp h

theorem bmoReadAll_spec (size : Nat → Nat) (hs : ∀ k, 0 < size k) : ∀ (n k : Nat) (r : Bmo), r.work < n → bmoReadAll size n k r = some r.remaining := by
  intro n
  induction n with
  | zero => intro k r h; omega
  | succ n ih =>
    intro k r h
    have hr := bmoRead_spec (size k) r (hs k)
    rw [bmoReadAll]
    cases hb : bmoRead (size k) r with
    | none => rw [hb] at hr; simp only at hr ⊢; rw [hr]
    | some o =>
      obtain ⟨s, r'⟩ := o
      rw [hb] at hr
      simp only at hr ⊢
      rw [ih (k + 1) r' (by omega)]
      simp [hr.1]

/-! ### The lines that are read -/

theorem bmoLines_body (empty : Bool) (ls : List Str) : bmoLines true true empty ls =
    ls.filter (fun l => decide (l ≠ str "<BANKMSGSET><BANKMSGSETV1>" ∧ l ≠ str "<BANKMSGSETV1><BANKMSGSET>")) := by
  induction ls with
  | nil => rfl
  | cons l ls ih =>
    rw [bmoLines, if_neg (by simp), if_neg (by simp), ih, List.filter_cons]
    by_cases h : l = str "<BANKMSGSET><BANKMSGSETV1>" ∨ l = str "<BANKMSGSETV1><BANKMSGSET>"
    · rw [if_pos h, if_neg (by simp only [decide_eq_true_eq, ne_eq, ← not_or]; exact fun hc => hc h)]
    · rw [if_neg h, if_pos (by simp only [decide_eq_true_eq, ne_eq, ← not_or]; exact h)]

theorem bmoLines_header (empty : Bool) (ls : List Str) : bmoLines true false empty ls =
    match ls.dropWhile (fun l => decide (l ≠ str "<OFX>")) with
    | [] => ls.takeWhile (fun l => decide (l ≠ str "<OFX>"))
    | ofx :: body => ls.takeWhile (fun l => decide (l ≠ str "<OFX>")) ++
        (if empty = true ∨ [] ∈ ls.takeWhile (fun l => decide (l ≠ str "<OFX>")) then [] else [[]]) ++
        ofx :: body.filter (fun l => decide (l ≠ str "<BANKMSGSET><BANKMSGSETV1>" ∧ l ≠ str "<BANKMSGSETV1><BANKMSGSET>")) := by
  induction ls generalizing empty with
  | nil => rfl
  | cons l ls ih =>
    rw [bmoLines, if_neg (by simp), if_pos (by rfl)]
    by_cases h : l = str "<OFX>"
    · have e1 : (l :: ls).dropWhile (fun l => decide (l ≠ str "<OFX>")) = l :: ls := by rw [List.dropWhile_cons, if_neg (by simp [h])]
      have e2 : (l :: ls).takeWhile (fun l => decide (l ≠ str "<OFX>")) = [] := by rw [List.takeWhile_cons, if_neg (by simp [h])]
      rw [if_pos h, e1, e2, bmoLines_body]
      cases empty <;> simp
    · have e1 : (l :: ls).dropWhile (fun l => decide (l ≠ str "<OFX>")) = ls.dropWhile (fun l => decide (l ≠ str "<OFX>")) := by
        rw [List.dropWhile_cons, if_pos (by simp [h])]
      have e2 : (l :: ls).takeWhile (fun l => decide (l ≠ str "<OFX>")) = l :: ls.takeWhile (fun l => decide (l ≠ str "<OFX>")) := by
        rw [List.takeWhile_cons, if_pos (by simp [h])]
      rw [if_neg h, e1, e2, ih]
      cases ls.dropWhile (fun l => decide (l ≠ str "<OFX>")) with
      | nil => rfl
      | cons x t =>
        simp only [List.cons_append, List.mem_cons, Bool.or_eq_true, decide_eq_true_eq]
        congr 3
        by_cases h0 : l = []
        · subst h0; simp
        · simp [h0, Ne.symm h0]

theorem bmoLines_repaired (ls : List Str) : bmoLines false false false ls = repaired ls := by
  induction ls with
  | nil => rfl
  | cons l ls ih =>
    by_cases h : l = []
    · rw [bmoLines, if_pos (by simp [h]), ih]
      have e : (l :: ls).dropWhile (fun l => decide (l = [])) = ls.dropWhile (fun l => decide (l = [])) := by
        rw [List.dropWhile_cons, if_pos (by simp [h])]
      unfold repaired
      rw [e]
    · have e : bmoLines false false false (l :: ls) = bmoLines true false false (l :: ls) := by
        conv_lhs => rw [bmoLines, if_neg (by simp [h])]
        conv_rhs => rw [bmoLines, if_neg (by simp)]
      rw [e, bmoLines_header]
      unfold repaired
      simp only
      rw [show (l :: ls).dropWhile (fun l => decide (l = [])) = l :: ls by rw [List.dropWhile_cons, if_neg (by simp [h])]]
      cases (l :: ls).dropWhile (fun l => decide (l ≠ str "<OFX>")) with
      | nil => rfl
      | cons x t => simp only [Bool.false_eq_true, false_or]

theorem splitOn_lines {ls : List Str} {last : Str} (h : ∀ l ∈ ls, '\n' ∉ l) (h' : '\n' ∉ last) : splitOn '\n' (textOf ls ++ last) = ls ++ [last] := by
  induction ls with
  | nil => exact splitOn_noSep _ _ h'
  | cons l ls ih =>
    rw [textOf_cons]
    rw [show l ++ ['\n'] ++ textOf ls ++ last = l ++ '\n' :: (textOf ls ++ last) by simp, splitOn_append_sep _ _ _ (h l (by simp)), ih (fun l hl => h l (by simp [hl]))]
    rfl

/-- **C102 (partial)** Whatever the sizes of the buffers, reading ends and gives exactly the repaired lines. Missing: a last line without
line feed is lost. -/
theorem C102_repaired_partial (ls : List Str) (last : Str) (size : Nat → Nat) (h : ∀ l ∈ ls, '\n' ∉ l) (h' : '\n' ∉ last) (hs : ∀ k, 0 < size k) :
    ∃ n, ∀ m, n ≤ m → bmoReadAll size m 0 (newBmo (textOf ls ++ last)) = some (textOf (repaired ls)) := by
  refine ⟨(newBmo (textOf ls ++ last)).work + 1, fun m hm => ?_⟩
  rw [bmoReadAll_spec size hs m 0 _ (by omega)]
  unfold Bmo.remaining newBmo
  simp only [List.nil_append]
  rw [splitOn_lines h h', List.dropLast_concat, bmoLines_repaired]

theorem bmoReadAll_det (size : Nat → Nat) : ∀ (n m k : Nat) (r : Bmo) (a b : Str), bmoReadAll size n k r = some a → bmoReadAll size m k r = some b → a = b := by
  intro n
  induction n with
  | zero => intro m k r a b h; cases h
  | succ n ih =>
    intro m k r a b h1 h2
    cases m with
    | zero => cases h2
    | succ m =>
      rw [bmoReadAll] at h1 h2
      cases hb : bmoRead (size k) r with
      | none => rw [hb] at h1 h2; cases h1; cases h2; rfl
      | some o =>
        rw [hb] at h1 h2
        simp only [Option.map_eq_some_iff] at h1 h2
        obtain ⟨x, hx, rfl⟩ := h1
        obtain ⟨y, hy, rfl⟩ := h2
        rw [ih m (k + 1) o.2 x y hx hy]

/-- **C102 is false** of the code: the last line is lost if it does not end with a line feed. -/
theorem C102_last_line_violated : ¬ C102_Statement := by
  intro h
  obtain ⟨n, hn⟩ := h [str "OFXHEADER:100", [], str "<OFX>"] (str "</OFX>") (fun _ => 512) (by decide) (by decide) (.inr (by decide +kernel)) (by simp)
  have h2 : bmoReadAll (fun _ => 512) 5 0 (newBmo (textOf [str "OFXHEADER:100", [], str "<OFX>"] ++ str "</OFX>")) = some (str "OFXHEADER:100\n\n<OFX>\n") := by decide +kernel
  exact absurd (bmoReadAll_det _ _ _ _ _ _ _ hn h2) (by decide +kernel)

/-- Nothing is repaired in a text whose lines end with carriage return and line feed. -/
theorem C102_crlf (ls : List Str) (size : Nat → Nat) (h : ∀ l ∈ ls, '\n' ∉ l) (hs : ∀ k, 0 < size k) :
    ∃ n, ∀ m, n ≤ m → bmoReadAll size m 0 (newBmo (textOf (ls.map (· ++ ['\r'])))) = some (textOf (ls.map (· ++ ['\r']))) := by
  have hne : ∀ l ∈ ls.map (· ++ ['\r']), l ≠ [] ∧ l ≠ str "<OFX>" := by
    intro l hl
    obtain ⟨x, _, rfl⟩ := List.mem_map.mp hl
    refine ⟨by simp, ?_⟩
    intro e
    have := congrArg List.getLast? e
    rw [List.getLast?_concat] at this
    exact absurd this (by decide)
  have hr : repaired (ls.map (· ++ ['\r'])) = ls.map (· ++ ['\r']) := by
    unfold repaired
    simp only
    generalize ls.map (· ++ ['\r']) = xs at hne
    have e1 : xs.dropWhile (fun l => decide (l = [])) = xs := by
      cases xs with
      | nil => rfl
      | cons x xs => rw [List.dropWhile_cons, if_neg (by simpa using (hne x (by simp)).1)]
    rw [e1]
    have e2 : xs.dropWhile (fun l => decide (l ≠ str "<OFX>")) = [] := by
      rw [List.dropWhile_eq_nil_iff]
      intro x hx
      simpa using (hne x hx).2
    have e3 : xs.takeWhile (fun l => decide (l ≠ str "<OFX>")) = xs := by
      rw [List.takeWhile_eq_self_iff]
      intro x hx
      simpa using (hne x hx).2
    rw [e2, e3]
  obtain ⟨n, hn⟩ := C102_repaired_partial (ls.map (· ++ ['\r'])) [] size (by
    intro l hl
    obtain ⟨x, hx, rfl⟩ := List.mem_map.mp hl
    simp [h x hx]) (by simp) hs
  refine ⟨n, fun m hm => ?_⟩
  have := hn m hm
  rw [List.append_nil, hr] at this
  exact this

/-- Non-vacuity: a statement with all three defects, read in chunks of 1, 2, 3, … characters. -/
example : bmoReadAll (· + 1) 40 0 (newBmo (str "\n\nOFXHEADER:100\n<OFX>\nhello\n<BANKMSGSET><BANKMSGSETV1>\n\nworld\n")) =
    some (str "OFXHEADER:100\n\n<OFX>\nhello\n\nworld\n") := by decide +kernel

end Verif
