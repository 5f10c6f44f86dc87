import Verif.Lemmas.RunsTo
import Verif.Lemmas.Basic
import Verif.Lemmas.Calendar
import Verif.Model.Date
/-
How the date expressions match date texts.
-/
namespace Verif

/-- All characters are digits. -/
def Digits (s : Str) : Prop := ∀ x ∈ s, isDigit x = true

/-- One or two digits. -/
def Dig12 (s : Str) : Prop := Digits s ∧ (s.length = 1 ∨ s.length = 2)

/-- What may follow a date without offset: nothing, or something that begins neither with a digit nor with a slash. -/
def DateEnd (s : Str) : Prop := ∀ x t, s = x :: t → isDigit x = false ∧ x ≠ '/'

theorem DateEnd.nil : DateEnd [] := by intro x t h; cases h

theorem Digits.nil : Digits [] := by intro x h; cases h

theorem Digits.append {a b : Str} (ha : Digits a) (hb : Digits b) : Digits (a ++ b) := by
  intro x hx
  rcases List.mem_append.mp hx with h | h
  · exact ha x h
  · exact hb x h

theorem digits_span {a b s t : Str} {x : Char} (ha : Digits a) (hb : Digits b) (hx : isDigit x = false)
    (ht : ∀ y u, t = y :: u → isDigit y = false) (h : a ++ x :: s = b ++ t) : a = b ∧ t = x :: s := by
  induction a generalizing b with
  | nil =>
    cases b with
    | nil => exact ⟨rfl, h.symm⟩
    | cons z b =>
      simp only [List.nil_append, List.cons_append, List.cons.injEq] at h
      have := hb z (List.mem_cons_self ..)
      rw [← h.1, hx] at this; exact absurd this (by decide)
  | cons z a ih =>
    cases b with
    | nil =>
      simp only [List.nil_append, List.cons_append] at h
      have := ht z (a ++ x :: s) h.symm
      rw [ha z (List.mem_cons_self ..)] at this; exact absurd this (by decide)
    | cons w b =>
      simp only [List.cons_append, List.cons.injEq] at h
      obtain ⟨e1, e2⟩ := ih (fun y hy => ha y (List.mem_cons_of_mem _ hy)) (fun y hy => hb y (List.mem_cons_of_mem _ hy)) h.2
      exact ⟨by rw [h.1, e1], e2⟩

theorem length_two {s : Str} (h : s.length = 2) : ∃ x y, s = [x, y] := by
  match s, h with
  | [x, y], _ => exact ⟨x, y, rfl⟩

theorem slash_noDigit : isDigit '/' = false := by decide

/-! ### Matches -/

theorem d12_match {s rest : Str} {c c' : Caps} (h : Re.Match d12 s rest c c') : Dig12 s ∧ c' = c := by
  have h : Re.Match (.seq .digit (.opt .digit)) s rest c c' := h
  rw [seq_match_iff] at h
  obtain ⟨s1, s2, c1, rfl, h1, h2⟩ := h
  unfold Re.digit at h1 h2
  rw [cls_match_iff] at h1
  obtain ⟨x, rfl, hx, rfl⟩ := h1
  rw [opt_match_iff, cls_match_iff] at h2
  rcases h2 with ⟨y, rfl, hy, rfl⟩ | ⟨rfl, rfl⟩
  · exact ⟨⟨by intro z hz; simp at hz; rcases hz with rfl | rfl <;> assumption, by simp⟩, rfl⟩
  · exact ⟨⟨by intro z hz; simp at hz; subst hz; assumption, by simp⟩, rfl⟩

theorem d12_run {s rest : Str} (h : Dig12 s) (hr : ∀ x t, rest = x :: t → isDigit x = false) (c : Caps) : RunsTo d12 s rest c c := by
  obtain ⟨hd, hl | hl⟩ := h
  · obtain ⟨x, rfl⟩ := List.length_eq_one_iff.mp hl
    have := RunsTo.seq (RunsTo.cls (p := isDigit) (hd x (by simp)) ([] ++ rest) c) (RunsTo.optNone (a := .digit) (NoMatch.cls hr))
    exact this
  · obtain ⟨x, y, rfl⟩ := length_two hl
    have := RunsTo.seq (RunsTo.cls (p := isDigit) (hd x (by simp)) ([y] ++ rest) c)
      (RunsTo.opt (a := .digit) (RunsTo.cls (p := isDigit) (hd y (by simp)) rest c))
    exact this

/-- The year group of a full date. -/
def yearRe : Re := .cat [.digit, .digit, .opt (.cat [.digit, .digit])]

/-- Two or four digits. -/
def Dig24 (s : Str) : Prop := Digits s ∧ (s.length = 2 ∨ s.length = 4)

theorem yearRe_match {s rest : Str} {c c' : Caps} (h : Re.Match yearRe s rest c c') : Dig24 s ∧ c' = c := by
  have h : Re.Match (.seq .digit (.seq .digit (.opt (.seq .digit .digit)))) s rest c c' := h
  rw [seq_match_iff] at h
  obtain ⟨s1, s2, c1, rfl, h1, h2⟩ := h
  rw [seq_match_iff] at h2
  obtain ⟨s3, s4, c2, rfl, h3, h4⟩ := h2
  unfold Re.digit at h1 h3 h4
  rw [cls_match_iff] at h1 h3
  obtain ⟨x, rfl, hx, rfl⟩ := h1
  obtain ⟨y, rfl, hy, rfl⟩ := h3
  rw [opt_match_iff, seq_match_iff] at h4
  rcases h4 with ⟨s5, s6, c3, rfl, h5, h6⟩ | ⟨rfl, rfl⟩
  · rw [cls_match_iff] at h5 h6
    obtain ⟨z, rfl, hz, rfl⟩ := h5
    obtain ⟨w, rfl, hw, rfl⟩ := h6
    refine ⟨⟨?_, by simp⟩, rfl⟩
    intro v hv; simp at hv; rcases hv with rfl | rfl | rfl | rfl <;> assumption
  · refine ⟨⟨?_, by simp⟩, rfl⟩
    intro v hv; simp at hv; rcases hv with rfl | rfl <;> assumption

theorem yearRe_run {s rest : Str} (h : Dig24 s) (hr : ∀ x t, rest = x :: t → isDigit x = false) (c : Caps) : RunsTo yearRe s rest c c := by
  obtain ⟨hd, hl | hl⟩ := h
  · obtain ⟨x, y, rfl⟩ := length_two hl
    exact RunsTo.seq (RunsTo.cls (p := isDigit) (hd x (by simp)) ([y] ++ [] ++ rest) c)
      (RunsTo.seq (RunsTo.cls (p := isDigit) (hd y (by simp)) ([] ++ rest) c)
        (RunsTo.optNone (a := .seq .digit .digit) (NoMatch.seqL (NoMatch.cls hr))))
  · match s, hl with
    | [x, y, z, w], _ =>
      exact RunsTo.seq (RunsTo.cls (p := isDigit) (hd x (by simp)) ([y] ++ ([z] ++ [w]) ++ rest) c)
        (RunsTo.seq (RunsTo.cls (p := isDigit) (hd y (by simp)) ([z] ++ [w] ++ rest) c)
          (RunsTo.opt (RunsTo.seq (RunsTo.cls (p := isDigit) (hd z (by simp)) ([w] ++ rest) c)
            (RunsTo.cls (p := isDigit) (hd w (by simp)) rest c))))

/-- The year part. -/
def yearPart : Re := .seq (.grp (str "ymdy") yearRe) (.ch '/')
/-- Month and day. -/
def mdPart : Re := .seq (.grp (str "ymdm") d12) (.seq (.ch '/') (.grp (str "ymdd") d12))

theorem ymdFull_eq : ymdFull = .grp (str "ymd") (.seq (.opt yearPart) mdPart) := rfl

theorem yearPart_match {s rest : Str} {c c' : Caps} (h : Re.Match yearPart s rest c c') : ∃ y, Dig24 y ∧ s = y ++ ['/'] := by
  unfold yearPart at h
  rw [seq_match_iff] at h
  obtain ⟨s1, s2, c1, rfl, h1, h2⟩ := h
  rw [grp_match_iff] at h1
  obtain ⟨c2, h1, rfl⟩ := h1
  rw [ch_match_iff] at h2
  obtain ⟨rfl, rfl⟩ := h2
  exact ⟨s1, (yearRe_match h1).1, rfl⟩

theorem mdPart_match {s rest : Str} {c c' : Caps} (h : Re.Match mdPart s rest c c') :
    ∃ m d, Dig12 m ∧ Dig12 d ∧ s = m ++ '/' :: d := by
  unfold mdPart at h
  rw [seq_match_iff] at h
  obtain ⟨s1, s2, c1, rfl, h1, h2⟩ := h
  rw [grp_match_iff] at h1
  obtain ⟨c2, h1, rfl⟩ := h1
  rw [seq_match_iff] at h2
  obtain ⟨s3, s4, c3, rfl, h3, h4⟩ := h2
  rw [ch_match_iff] at h3
  obtain ⟨rfl, rfl⟩ := h3
  rw [grp_match_iff] at h4
  obtain ⟨c4, h4, rfl⟩ := h4
  exact ⟨s1, s4, (d12_match h1).1, (d12_match h4).1, by simp⟩

theorem DateEnd.notDigit {s : Str} (h : DateEnd s) : ∀ x t, s = x :: t → isDigit x = false := fun x t e => (h x t e).1

theorem slashTail {t : Str} : ∀ x u, '/' :: t = x :: u → isDigit x = false := by
  intro x u e; cases e; exact slash_noDigit

/-- Digits followed by the end of a date are not month and day. -/
theorem mdPart_no {d rest : Str} (hd : Digits d) (hr : DateEnd rest) : NoMatch mdPart (d ++ rest) := by
  intro s1 s2 c c' e hma
  obtain ⟨m, d', hm, hd', rfl⟩ := mdPart_match hma
  have := digits_span (a := m) (b := d) (s := d' ++ s2) (t := rest) (x := '/') hm.1 hd slash_noDigit hr.notDigit (by rw [e]; simp)
  exact (hr _ _ this.2).2 rfl

theorem yearMd_no {m d rest : Str} (hm : Digits m) (hd : Digits d) (hr : DateEnd rest) :
    NoMatch (.seq yearPart mdPart) (m ++ ('/' :: d) ++ rest) := by
  refine NoMatch.seqR (fun s1 s2 c c' e h1 => ?_)
  obtain ⟨y, hy, rfl⟩ := yearPart_match h1
  have := digits_span (a := y) (b := m) (s := s2) (t := '/' :: d ++ rest) (x := '/') hy.1 hm slash_noDigit
    (by rw [List.cons_append]; exact slashTail) (by rw [← List.append_assoc, e]; simp)
  have e2 : s2 = d ++ rest := by have := this.2; simp at this; exact this.symm
  rw [e2]
  exact mdPart_no hd hr

theorem yearMd_no' {y rest : Str} (hy : Digits y) (hr : DateEnd rest) : NoMatch (.seq yearPart mdPart) (y ++ rest) := by
  refine NoMatch.seqR (fun s1 s2 c c' e h1 => ?_)
  obtain ⟨y', hy', rfl⟩ := yearPart_match h1
  have := digits_span (a := y') (b := y) (s := s2) (t := rest) (x := '/') hy'.1 hy slash_noDigit hr.notDigit (by rw [e]; simp)
  exact absurd rfl (hr _ _ this.2).2

theorem RunsTo.seqOptNone {a r : Re} {x rest : Str} {c c' : Caps} (hn : NoMatch (.seq a r) (x ++ rest)) (hr : RunsTo r x rest c c') :
    RunsTo (.seq (.opt a) r) x rest c c' := by
  intro k res hk
  have h1 := hn.run k c
  rw [run_seq] at h1
  rw [run_seq, run_opt, h1, hr k res hk]; rfl

theorem mdPart_run {m d rest : Str} (hm : Dig12 m) (hd : Dig12 d) (hr : ∀ x t, rest = x :: t → isDigit x = false) (c : Caps) :
    RunsTo mdPart (m ++ ('/' :: d)) rest c ((str "ymdd", d) :: (str "ymdm", m) :: c) :=
  RunsTo.seq (RunsTo.grp (d12_run hm (by rw [List.cons_append]; exact slashTail) c))
    (RunsTo.seq (RunsTo.ch '/' (d ++ rest) _) (RunsTo.grp (d12_run hd hr _)))

/-- y/m/d -/
theorem ymd_run {y m d rest : Str} (hy : Dig24 y) (hm : Dig12 m) (hd : Dig12 d) (hr : DateEnd rest) (c : Caps) :
    RunsTo (.opt ymdRe) (y ++ '/' :: (m ++ '/' :: d)) rest c
      ((str "ymd", y ++ '/' :: (m ++ '/' :: d)) :: (str "ymdd", d) :: (str "ymdm", m) :: (str "ymdy", y) :: c) := by
  refine RunsTo.opt (RunsTo.altL ?_)
  rw [ymdFull_eq]
  refine RunsTo.grp ?_
  have h1 : RunsTo (.opt yearPart) (y ++ ['/']) ((m ++ ('/' :: d)) ++ rest) c ((str "ymdy", y) :: c) :=
    RunsTo.opt (RunsTo.seq (RunsTo.grp (yearRe_run hy (by rw [List.cons_append]; exact slashTail) c)) (RunsTo.ch '/' _ _))
  have := RunsTo.seq h1 (mdPart_run hm hd hr.notDigit _)
  simpa using this

/-- m/d -/
theorem md_run {m d rest : Str} (hm : Dig12 m) (hd : Dig12 d) (hr : DateEnd rest) (c : Caps) :
    RunsTo (.opt ymdRe) (m ++ '/' :: d) rest c ((str "ymd", m ++ '/' :: d) :: (str "ymdd", d) :: (str "ymdm", m) :: c) := by
  refine RunsTo.opt (RunsTo.altL ?_)
  rw [ymdFull_eq]
  exact RunsTo.grp (RunsTo.seqOptNone (yearMd_no hm.1 hd.1 hr) (mdPart_run hm hd hr.notDigit _))

/-- Four digits. -/
def Dig4 (s : Str) : Prop := Digits s ∧ s.length = 4

theorem seqOpt_no {a r : Re} {s : Str} (h1 : NoMatch (.seq a r) s) (h2 : NoMatch r s) : NoMatch (.seq (.opt a) r) s := by
  intro s1 s2 c c' e hm
  rw [seq_match_iff] at hm
  obtain ⟨t1, t2, c1, rfl, h3, h4⟩ := hm
  rw [opt_match_iff] at h3
  rcases h3 with h3 | ⟨rfl, rfl⟩
  · exact h1 (t1 ++ t2) s2 c c' e (seq_match_iff.mpr ⟨t1, t2, c1, rfl, h3, h4⟩)
  · exact h2 t2 s2 c1 c' (by simpa using e) h4

theorem y4_run {y rest : Str} (hy : Dig4 y) (c : Caps) : RunsTo (.cat [.digit, .digit, .digit, .digit]) y rest c c := by
  obtain ⟨hd, hl⟩ := hy
  match y, hl with
  | [x, y, z, w], _ =>
    exact RunsTo.seq (RunsTo.cls (p := isDigit) (hd x (by simp)) ([y] ++ ([z] ++ [w]) ++ rest) c)
      (RunsTo.seq (RunsTo.cls (p := isDigit) (hd y (by simp)) ([z] ++ [w] ++ rest) c)
        (RunsTo.seq (RunsTo.cls (p := isDigit) (hd z (by simp)) ([w] ++ rest) c) (RunsTo.cls (p := isDigit) (hd w (by simp)) rest c)))

/-- yyyy -/
theorem y_run {y rest : Str} (hy : Dig4 y) (hr : DateEnd rest) (c : Caps) :
    RunsTo (.opt ymdRe) y rest c ((str "ym", y) :: (str "ymy", y) :: c) := by
  refine RunsTo.opt (RunsTo.altR ?_ ?_)
  · rw [ymdFull_eq]
    exact NoMatch.grp (seqOpt_no (yearMd_no' hy.1 hr) (mdPart_no hy.1 hr))
  · have h : RunsTo (.opt (.seq (.ch '/') (.grp (str "ymm") d12))) [] rest ((str "ymy", y) :: c) ((str "ymy", y) :: c) :=
      RunsTo.optNone (NoMatch.seqL (NoMatch.ch (fun x t e => (hr x t e).2)))
    have h2 := RunsTo.seq (RunsTo.grp (n := str "ymy") (y4_run hy c)) h
    rw [List.append_nil] at h2
    exact RunsTo.grp h2

/-- yyyy/m -/
theorem ym_run {y m rest : Str} (hy : Dig4 y) (hm : Dig12 m) (hr : DateEnd rest) (c : Caps) :
    RunsTo (.opt ymdRe) (y ++ '/' :: m) rest c ((str "ym", y ++ '/' :: m) :: (str "ymm", m) :: (str "ymy", y) :: c) := by
  refine RunsTo.opt (RunsTo.altR ?_ ?_)
  · rw [ymdFull_eq]
    refine NoMatch.grp (seqOpt_no (yearMd_no hy.1 hm.1 hr) ?_)
    intro s1 s2 c c' e hma
    obtain ⟨m', d', hm', hd', rfl⟩ := mdPart_match hma
    have := digits_span (a := m') (b := y) (s := d' ++ s2) (t := '/' :: m ++ rest) (x := '/') hm'.1 hy.1 slash_noDigit
      (by rw [List.cons_append]; exact slashTail) (by rw [← List.append_assoc, e]; simp)
    have := hm'.2; have h4 := hy.2; simp_all
  · have h : RunsTo (.opt (.seq (.ch '/') (.grp (str "ymm") d12))) ('/' :: m) rest ((str "ymy", y) :: c) ((str "ymm", m) :: (str "ymy", y) :: c) :=
      RunsTo.opt (RunsTo.seq (RunsTo.ch '/' (m ++ rest) _) (RunsTo.grp (d12_run hm hr.notDigit _)))
    exact RunsTo.grp (RunsTo.seq (RunsTo.grp (n := str "ymy") (y4_run hy c)) h)

/-- No date, before something that does not begin with a digit. -/
theorem noYmd_run {rest : Str} (hr : ∀ x t, rest = x :: t → isDigit x = false) (c : Caps) : RunsTo (.opt ymdRe) [] rest c c := by
  refine RunsTo.optNone (NoMatch.alt ?_ ?_)
  · rw [ymdFull_eq]
    refine NoMatch.grp (seqOpt_no (NoMatch.seqL (NoMatch.seqL (NoMatch.grp (NoMatch.seqL (NoMatch.cls hr))))) (NoMatch.seqL (NoMatch.grp (NoMatch.seqL (NoMatch.cls hr)))))
  · exact NoMatch.grp (NoMatch.seqL (NoMatch.grp (NoMatch.seqL (NoMatch.cls hr))))

/-- The units of an offset. -/
def isUnit (c : Char) : Bool := decide (c = 'd') || decide (c = '|') || decide (c = 'w') || decide (c = 'm') || decide (c = 'y')

theorem offset_run {sign u : Char} {ds rest : Str} (hs : sign = '+' ∨ sign = '-') (hne : ds ≠ []) (hds : Digits ds) (hu : isUnit u = true)
    (c : Caps) : RunsTo (.opt offsetRe) (sign :: (ds ++ [u])) rest c ((str "offset", sign :: (ds ++ [u])) :: c) := by
  refine RunsTo.opt (RunsTo.grp ?_)
  have hu' : isDigit u = false := by
    simp only [isUnit, Bool.or_eq_true, decide_eq_true_eq] at hu
    rcases hu with (((rfl | rfl) | rfl) | rfl) | rfl <;> decide
  refine RunsTo.seq (x := [sign]) (RunsTo.cls ?_ _ _) (RunsTo.seq (RunsTo.plus hne hds ?_ _) (RunsTo.cls hu _ _))
  · simpa using hs
  · intro y t e; simp at e; rw [← e.1]; exact hu'

theorem noOffset_run {rest : Str} (hr : ∀ x t, rest = x :: t → x ≠ '+' ∧ x ≠ '-') (c : Caps) : RunsTo (.opt offsetRe) [] rest c c := by
  refine RunsTo.optNone (NoMatch.grp (NoMatch.seqL (NoMatch.cls ?_)))
  intro x t e
  have := hr x t e
  simp [this]

/-! ### Padded numbers -/

theorem padInt_spec {x : Int} {w : Nat} (h0 : 0 ≤ x) (hw : 0 < w) (h1 : x < 10 ^ w) :
    Digits (padInt x w) ∧ (padInt x w).length = w ∧ (strNat (padInt x w) : Int) = x := by
  have hn : x.natAbs < 10 ^ w := by
    have : ((x.natAbs : Nat) : Int) < ((10 ^ w : Nat) : Int) := by rw [Int.natAbs_of_nonneg h0]; exact_mod_cast h1
    exact_mod_cast this
  have hl := natStr_length_le x.natAbs w hn hw
  unfold padInt
  rw [if_neg (by omega)]
  simp only [List.nil_append]
  refine ⟨?_, ?_, ?_⟩
  · refine Digits.append ?_ ?_
    · intro y hy; exact List.all_eq_true.mp (rep_zero_allDigits _) y hy
    · intro y hy; exact List.all_eq_true.mp (natStr_allDigits _) y hy
  · simp [rep]; omega
  · rw [strNat_append, strNat_rep_zero, strNat_natStr]; simp; omega

end Verif
