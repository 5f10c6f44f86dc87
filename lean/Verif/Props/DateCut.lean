import Verif.Props.Date
import Verif.Lemmas.RegexCut
/-
C74: what a date flag accepts, exactly: the texts that begin with a date or an offset; their value is that of the beginning.
-/
namespace Verif

/-- An offset: a sign, digits and a unit (the code's units include the bar). -/
inductive OffsetText : Str → Prop
  | mk {sign u : Char} {ds : Str} : (sign = '+' ∨ sign = '-') → ds ≠ [] → Digits ds → isUnit u = true → OffsetText (sign :: (ds ++ [u]))

/-- A whole date text: a date, an offset, or a date followed by an offset. -/
inductive WholeDate : Str → Prop
  | date {t : Str} : DateText t → WholeDate t
  | offset {off : Str} : OffsetText off → WholeDate off
  | both {t off : Str} : DateText t → OffsetText off → WholeDate (t ++ off)

theorem y4_match {s rest : Str} {c c' : Caps} (h : Re.Match (.cat [.digit, .digit, .digit, .digit]) s rest c c') : Dig4 s ∧ c' = c := by
  have h : Re.Match (.seq (.cls isDigit) (.seq (.cls isDigit) (.seq (.cls isDigit) (.cls isDigit)))) s rest c c' := h
  simp only [seq_match_iff, cls_match_iff] at h
  obtain ⟨s1, s2, c1, rfl, ⟨x, rfl, hx, rfl⟩, s3, s4, c2, rfl, ⟨y, rfl, hy, rfl⟩, s5, s6, c3, rfl, ⟨z, rfl, hz, rfl⟩, ⟨w, rfl, hw, rfl⟩⟩ := h
  refine ⟨⟨?_, rfl⟩, rfl⟩
  intro a ha
  simp only [List.cons_append, List.nil_append, List.mem_cons, List.not_mem_nil, or_false] at ha
  rcases ha with rfl | rfl | rfl | rfl <;> assumption

/-- What the expression of dates matches is a date, and the groups say so. -/
theorem ymd_match {s rest : Str} {c' : Caps} (h : Re.Match ymdRe s rest [] c') :
    DateText s ∧ (c'.get (str "ymd") ≠ [] ∨ c'.get (str "ym") ≠ []) := by
  unfold ymdRe at h
  rw [alt_match_iff] at h
  rcases h with h | h
  · rw [ymdFull_eq, grp_match_iff] at h
    obtain ⟨c1, h, rfl⟩ := h
    rw [seq_match_iff] at h
    obtain ⟨s1, s2, c2, rfl, h1, h2⟩ := h
    obtain ⟨m, d, hm, hd, rfl⟩ := mdPart_match h2
    rw [opt_match_iff] at h1
    have key : DateText (s1 ++ (m ++ '/' :: d)) := by
      rcases h1 with h1 | ⟨rfl, _⟩
      · obtain ⟨y, hy, rfl⟩ := yearPart_match h1
        rw [List.append_assoc]
        exact DateText.ymd hy hm hd
      · exact DateText.md hm hd
    exact ⟨key, .inl (by simp [Caps.get])⟩
  · unfold ymdShort at h
    rw [grp_match_iff] at h
    obtain ⟨c1, h, rfl⟩ := h
    have h : Re.Match (.seq (.grp (str "ymy") (.cat [.digit, .digit, .digit, .digit])) (.opt (.seq (.ch '/') (.grp (str "ymm") d12)))) s rest [] c1 := h
    rw [seq_match_iff] at h
    obtain ⟨s1, s2, c2, rfl, h1, h2⟩ := h
    rw [grp_match_iff] at h1
    obtain ⟨c3, h1, rfl⟩ := h1
    have hy := (y4_match h1).1
    rw [opt_match_iff] at h2
    have key : DateText (s1 ++ s2) := by
      rcases h2 with h2 | ⟨rfl, _⟩
      · rw [seq_match_iff] at h2
        obtain ⟨s3, s4, c4, rfl, h3, h4⟩ := h2
        rw [ch_match_iff] at h3
        obtain ⟨rfl, rfl⟩ := h3
        rw [grp_match_iff] at h4
        obtain ⟨c5, h4, rfl⟩ := h4
        exact DateText.ym hy (d12_match h4).1
      · rw [List.append_nil]; exact DateText.y hy
    have ne : s1 ++ s2 ≠ [] := by simp [hy.ne_nil]
    refine ⟨key, .inr ?_⟩
    simpa [Caps.get] using ne

theorem offset_match {s rest : Str} {c c' : Caps} (h : Re.Match offsetRe s rest c c') : OffsetText s ∧ c' = (str "offset", s) :: c := by
  unfold offsetRe at h
  rw [grp_match_iff] at h
  obtain ⟨c1, h, rfl⟩ := h
  have h : Re.Match (.seq (.cls (fun c => decide (c = '+') || decide (c = '-'))) (.seq (.plus (.cls isDigit)) (.cls isUnit))) s rest c c1 := h
  rw [seq_match_iff] at h
  obtain ⟨s1, s2, c2, rfl, h1, h2⟩ := h
  rw [cls_match_iff] at h1
  obtain ⟨sign, rfl, hs, rfl⟩ := h1
  rw [seq_match_iff] at h2
  obtain ⟨s3, s4, c3, rfl, h3, h4⟩ := h2
  rw [plus_cls_match_iff] at h3
  rw [cls_match_iff] at h4
  obtain ⟨u, rfl, hu, rfl⟩ := h4
  obtain ⟨ne, hd, rfl⟩ := h3
  exact ⟨OffsetText.mk (by simpa using hs) ne hd hu, rfl⟩

theorem match_rest {r : Re} {s rest : Str} {c c' : Caps} (h : Re.Match r s rest c c') : NoEot r → ∀ rest', Re.Match r s rest' c c' := by
  induction h with
  | eps => intro _ rest'; exact .eps
  | cls hp => intro _ rest'; exact .cls hp
  | seq _ _ ih1 ih2 => intro h rest'; exact .seq (ih1 h.1 _) (ih2 h.2 _)
  | altL _ ih => intro h rest'; exact .altL (ih h.1 _)
  | altR _ ih => intro h rest'; exact .altR (ih h.2 _)
  | starNil => intro _ rest'; exact .starNil
  | starCons hne _ _ ih1 ih2 => intro h rest'; exact .starCons hne (ih1 h _) (ih2 h _)
  | grp _ ih => intro h rest'; exact .grp (ih h _)
  | eot => intro h; cases h

theorem ymd_noEot : NoEot ymdRe := by simp [ymdRe, ymdFull, ymdShort, NoEot, Re.cat, Re.opt, Re.ch, Re.digit, d12]
theorem date_noEot : NoEot dateRe := by
  simp [dateRe, offsetRe, ymdRe, ymdFull, ymdShort, NoEot, Re.cat, Re.opt, Re.ch, Re.digit, Re.plus, d12]

theorem DateText.ne_nil {t : Str} (h : DateText t) : t ≠ [] := by
  cases h with
  | ymd _ _ _ => simp
  | md _ _ => simp
  | ym _ _ => simp
  | y h => exact h.ne_nil

theorem ymd_matches {t : Str} (h : DateText t) (rest : Str) : ∃ c', Re.Match ymdRe t rest [] c' := by
  obtain ⟨c1, h1, _, _⟩ := h.run
  have hm := (h1 [] DateEnd.nil).matchAt
  obtain ⟨s1, s2, c', e, hM, hk⟩ := Re.run_sound _ _ _ _ _ hm
  simp only [reDone, Option.some.injEq, Prod.mk.injEq] at hk
  obtain ⟨rfl, rfl⟩ := hk
  simp only [List.append_nil] at e
  subst e
  rw [opt_match_iff] at hM
  rcases hM with hM | ⟨e, _⟩
  · exact ⟨_, match_rest hM ymd_noEot rest⟩
  · exact absurd e h.ne_nil

/-- What is looked at: the match at the beginning. -/
theorem date_matched (today : Today) (s : Str) : ∃ s1 s2 c, s = s1 ++ s2 ∧ Re.Match dateRe s1 s2 [] c ∧ dateRe.matchAt s = some (c, s2) ∧
    dateSet today s = parseDate today c := by
  have h0 : Re.Match dateRe [] s [] [(str "date", [])] := by
    unfold dateRe
    rw [grp_match_iff]
    refine ⟨[], ?_, rfl⟩
    exact seq_match_iff.mpr ⟨[], [], [], rfl, opt_match_iff.mpr (.inr ⟨rfl, rfl⟩), opt_match_iff.mpr (.inr ⟨rfl, rfl⟩)⟩
  have h1 := Re.run_complete h0 reDone rfl
  obtain ⟨⟨c, s2⟩, hm⟩ := Option.isSome_iff_exists.mp h1
  have hm : dateRe.matchAt s = some (c, s2) := hm
  obtain ⟨s1, t2, c', e, hM, hk⟩ := Re.run_sound _ _ _ _ _ hm
  simp only [reDone, Option.some.injEq, Prod.mk.injEq] at hk
  obtain ⟨rfl, rfl⟩ := hk
  refine ⟨s1, t2, c', e, hM, hm, ?_⟩
  unfold dateSet
  rw [matches_at hm]

/-- **C74** (value) The value of an accepted text is that of a whole date at its beginning. -/
theorem C74_value (today : Today) (s : Str) (n : Int) (h : dateSet today s = .ok n) :
    ∃ t rest, s = t ++ rest ∧ WholeDate t ∧ dateSet today t = .ok n := by
  obtain ⟨s1, s2, c, rfl, hM, hm, hd⟩ := date_matched today s
  refine ⟨s1, s2, rfl, ?_, ?_⟩
  · unfold dateRe at hM
    rw [grp_match_iff] at hM
    obtain ⟨c1, hM, rfl⟩ := hM
    have hM : Re.Match (.seq (.opt ymdRe) (.opt offsetRe)) s1 s2 [] c1 := hM
    rw [seq_match_iff] at hM
    obtain ⟨t, off, c2, rfl, h1, h2⟩ := hM
    rw [opt_match_iff] at h1 h2
    rcases h1 with h1 | ⟨rfl, rfl⟩ <;> rcases h2 with h2 | ⟨rfl, rfl⟩
    · exact .both (ymd_match h1).1 (offset_match h2).1
    · rw [List.append_nil]; exact .date (ymd_match h1).1
    · exact .offset (offset_match h2).1
    · rw [h] at hd
      cases hd
  · have h1 := Re.matchAt_cut date_noEot hm
    unfold dateSet
    rw [matches_at h1, ← h, hd]

theorem parseDate_ok (today : Today) (c : Caps) (h : c.get (str "ymd") ≠ [] ∨ c.get (str "ym") ≠ [] ∨ c.get (str "offset") ≠ []) :
    ∃ n, parseDate today c = .ok n := by
  unfold parseDate dateBase
  by_cases h1 : c.get (str "ymd") ≠ []
  · rw [if_pos h1]; exact ⟨_, rfl⟩
  · rw [if_neg h1]
    by_cases h2 : c.get (str "ym") ≠ []
    · rw [if_pos h2]; exact ⟨_, rfl⟩
    · rw [if_neg h2, if_neg]
      · exact ⟨_, rfl⟩
      · rcases h with h | h | h
        · exact absurd h h1
        · exact absurd h h2
        · exact h

/-- **C74** (exactly) A text is accepted exactly when it begins with a whole date; anything may follow. -/
theorem C74_accepts_iff (today : Today) (s : Str) : (∃ n, dateSet today s = .ok n) ↔ ∃ t rest, s = t ++ rest ∧ WholeDate t := by
  constructor
  · rintro ⟨n, h⟩
    obtain ⟨t, rest, e, hw, _⟩ := C74_value today s n h
    exact ⟨t, rest, e, hw⟩
  · rintro ⟨t, rest, rfl, hw⟩
    have key : (∃ d r, t ++ rest = d ++ r ∧ DateText d) ∨ (∃ o r, t ++ rest = o ++ r ∧ OffsetText o) := by
      cases hw with
      | date h => exact .inl ⟨t, rest, rfl, h⟩
      | offset h => exact .inr ⟨t, rest, rfl, h⟩
      | both h _ => exact .inl ⟨_, _, by rw [List.append_assoc], h⟩
    generalize t ++ rest = s at key
    clear hw
    rcases key with ⟨d, r, rfl, hd⟩ | ⟨o, r, rfl, ho⟩
    · obtain ⟨c1, h1⟩ := ymd_matches hd r
      -- whatever follows the date, the rest of the expression matches
      have total : ∀ s' c', ((Re.opt offsetRe).run (fun s'' c'' => reDone s'' ((str "date", (d ++ r).take ((d ++ r).length - s''.length)) :: c'')) s' c').isSome = true := by
        intro s' c'
        rw [run_opt, orElse_isSome]
        simp [reDone]
      have h2 := Re.run_complete h1 ((Re.opt offsetRe).run (fun s'' c'' => reDone s'' ((str "date", (d ++ r).take ((d ++ r).length - s''.length)) :: c''))) (total _ _)
      obtain ⟨res, h3⟩ := Option.isSome_iff_exists.mp h2
      have h4 : dateRe.matchAt (d ++ r) = some res := by
        show orElse (ymdRe.run ((Re.opt offsetRe).run (fun s'' c'' => reDone s'' ((str "date", (d ++ r).take ((d ++ r).length - s''.length)) :: c''))) (d ++ r) []) _ = some res
        rw [h3]; rfl
      obtain ⟨s1, s2, c2, _, h5, h6⟩ := Re.run_sound _ _ _ _ _ h3
      have hg := (ymd_match h5).2
      obtain ⟨s3, s4, c3, _, h7, h8⟩ := Re.run_sound _ _ _ _ _ h6
      simp only [reDone, Option.some.injEq] at h8
      subst h8
      unfold dateSet
      rw [matches_at h4]
      refine parseDate_ok today _ ?_
      rw [opt_match_iff] at h7
      have e : c3.get (str "ymd") = c2.get (str "ymd") ∧ c3.get (str "ym") = c2.get (str "ym") := by
        rcases h7 with h7 | ⟨_, rfl⟩
        · rw [(offset_match h7).2, get_cons_ne (by decide), get_cons_ne (by decide)]; exact ⟨rfl, rfl⟩
        · exact ⟨rfl, rfl⟩
      rw [get_cons_ne (by decide), get_cons_ne (by decide), e.1, e.2]
      rcases hg with hg | hg
      · exact .inl hg
      · exact .inr (.inl hg)
    · cases ho with
      | @mk sign u ds hs ne hd hu =>
        have h1 : RunsTo (.opt ymdRe) [] (sign :: (ds ++ [u]) ++ r) [] [] := noYmd_run (by intro x t e; cases e; exact (signNotDigit hs).1) []
        have h2 := (date_run h1 (offset_run (rest := r) hs ne hd hu [])).matches
        unfold dateSet
        rw [List.nil_append] at h2
        rw [h2]
        refine parseDate_ok today _ (.inr (.inr ?_))
        rw [get_cons_ne (by decide)]
        simp [Caps.get]

/-- Accepted and refused texts. -/
example : WholeDate (str "2024/1/2") ∧ (str "2024/1/2 or so") = str "2024/1/2" ++ str " or so" :=
  ⟨.date (DateText.ymd (y := str "2024") (m := str "1") (d := str "2") ⟨by unfold Digits; decide, .inr rfl⟩ ⟨by unfold Digits; decide, .inl rfl⟩
    ⟨by unfold Digits; decide, .inl rfl⟩), by decide⟩
example : dateSet ⟨2024, 1, 10⟩ (str "12") = .error .err ∧ dateSet ⟨2024, 1, 10⟩ (str "123/4") = .error .err ∧
    dateSet ⟨2024, 1, 10⟩ (str "2024/1/234") = .ok (goDate 2024 1 23) := by decide +kernel

end Verif
