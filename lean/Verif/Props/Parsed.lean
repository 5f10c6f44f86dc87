import Verif.Props.ReadBack
import Verif.Props.Parsing
import Verif.Props.Format
import Verif.Props.CsvFile
import Verif.Props.Accounts
import Verif.Lemmas.Groups
/-
C147: what the parser accepts, and when it survives being written.
-/
namespace Verif

/-! ### Names -/

theorem segment_match {s rest : Str} {c c' : Caps} (h : Re.Match nameRe s rest c c') : Segment s := by
  unfold nameRe at h
  rw [seq_match_iff] at h
  obtain ⟨s1, s2, c1, rfl, h1, h2⟩ := h
  rw [cls_match_iff] at h1
  rw [star_cls_match_iff] at h2
  obtain ⟨x, rfl, hx, _⟩ := h1
  exact ⟨x, s2, rfl, hx, h2.1⟩

theorem tail_match {s rest : Str} {c c' : Caps} (h : Re.Match (.star (.seq (.ch ':') nameRe)) s rest c c') :
    s = [] ∨ ∃ u, s = ':' :: u ∧ AccountName u := by
  generalize hr : Re.star (.seq (.ch ':') nameRe) = r at h
  induction h with
  | eps => cases hr
  | cls _ => cases hr
  | seq _ _ _ _ => cases hr
  | altL _ _ => cases hr
  | altR _ _ => cases hr
  | grp _ _ => cases hr
  | eot => cases hr
  | starNil => exact .inl rfl
  | starCons _ h1 _ _ ih =>
    cases hr
    rw [seq_match_iff] at h1
    obtain ⟨s1, s2, c1, rfl, h1, h2⟩ := h1
    rw [ch_match_iff] at h1
    obtain ⟨rfl, _⟩ := h1
    have hs := segment_match h2
    rcases ih rfl with rfl | ⟨u, rfl, hu⟩
    · exact .inr ⟨s2, by simp, .one hs⟩
    · exact .inr ⟨s2 ++ ':' :: u, by simp, .cons hs hu⟩

theorem account_match {s rest : Str} {c c' : Caps} (h : Re.Match (.seq nameRe (.star (.seq (.ch ':') nameRe))) s rest c c') : AccountName s := by
  rw [seq_match_iff] at h
  obtain ⟨s1, s2, c1, rfl, h1, h2⟩ := h
  rcases tail_match h2 with rfl | ⟨u, rfl, hu⟩
  · rw [List.append_nil]; exact .one (segment_match h1)
  · exact .cons (segment_match h1) hu

theorem commodity_match {s rest : Str} {c c' : Caps} (h : Re.Match (.seq (.cls isAlpha) (.star .word)) s rest c c') : CommodityName s := by
  rw [seq_match_iff] at h
  obtain ⟨s1, s2, c1, rfl, h1, h2⟩ := h
  rw [cls_match_iff] at h1
  unfold Re.word at h2
  rw [star_cls_match_iff] at h2
  obtain ⟨x, rfl, hx, _⟩ := h1
  exact ⟨x, s2, rfl, hx, h2.1⟩

/-! ### Lines of postings -/

theorem posting_groups : postingRe.groups = [(str "account", .seq nameRe (.star (.seq (.ch ':') nameRe))),
    (str "amount1", .cat [.opt (.ch '-'), .plus .digit, .opt (.grp (str "decimals1") (.seq (.ch '.') (.plus .digit)))]),
    (str "decimals1", .seq (.ch '.') (.plus .digit)), (str "commodity1", .seq (.cls isAlpha) (.star .word)),
    (str "amount2", .cat [.opt (.ch '-'), .plus .digit, .opt (.grp (str "decimals2") (.seq (.ch '.') (.plus .digit)))]),
    (str "decimals2", .seq (.ch '.') (.plus .digit)), (str "commodity2", .seq (.cls isAlpha) (.star .word)),
    (str "shortNote", .star .any), (str "note", .star .any)] := rfl

theorem posting_account {line : Str} {c : Caps} (h : postingRe.matches line = some c) (hn : c.get (str "account") ≠ []) :
    AccountName (c.get (str "account")) := by
  obtain ⟨a, ha, _, _, _, hm⟩ := matches_get h hn
  rw [posting_groups] at ha
  simp only [List.mem_cons, Prod.mk.injEq, List.not_mem_nil, or_false] at ha
  simp (decide := true) only [true_and, false_and, or_false, false_or] at ha
  subst ha
  exact account_match hm

theorem get_nil (n : Str) : Caps.get [] n = [] := rfl

theorem amount_commodity {n m s rest : Str} {c c' : Caps} (h : Re.Match (amountRe n m) s rest c c') : CommodityName (c'.get (str "commodity" ++ m)) := by
  have k : Re.Match (.seq (numberRe n) (.seq (.plus .ws) (commodityRe m))) s rest c c' := h
  clear h
  rw [seq_match_iff] at k
  obtain ⟨_, _, _, _, _, k⟩ := k
  rw [seq_match_iff] at k
  obtain ⟨_, s2, _, _, _, k⟩ := k
  unfold commodityRe at k
  rw [grp_match_iff] at k
  obtain ⟨c2, k, rfl⟩ := k
  have : Caps.get ((str "commodity" ++ m, s2) :: c2) (str "commodity" ++ m) = s2 := by simp [Caps.get]
  rw [this]
  exact commodity_match k

/-- A written amount comes with its commodity. -/
theorem posting_commodities {line : Str} {c : Caps} (h : postingRe.matches line = some c) :
    (c.get (str "amount1") ≠ [] → CommodityName (c.get (str "commodity1"))) ∧
    (c.get (str "amount2") ≠ [] → CommodityName (c.get (str "commodity2"))) := by
  obtain ⟨pre, s1, post, rfl, hm⟩ := matches_sound h
  unfold postingRe at hm
  rw [alt_match_iff] at hm
  rcases hm with hm | hm
  · have hm : Re.Match (.seq (.plus .ws) (.seq accountRe (.seq (.opt (.cat [.plus .ws, amountRe (str "1") (str "1"), .opt balanceRe]))
      (.opt (.seq (.star .ws) (noteRe (str "shortNote"))))))) s1 post [] c := hm
    rw [seq_match_iff] at hm
    obtain ⟨_, _, c1, _, m1, hm⟩ := hm
    rw [seq_match_iff] at hm
    obtain ⟨_, _, c2, _, m2, hm⟩ := hm
    rw [seq_match_iff] at hm
    obtain ⟨_, _, c3, _, m3, m4⟩ := hm
    have e : ∀ n, n ∉ (Re.opt (.seq (.star .ws) (noteRe (str "shortNote")))).names → c.get n = c3.get n := fun n hn => match_get_other m4 hn
    have e0 : ∀ n, n ∉ accountRe.names → c2.get n = [] := by
      intro n hn
      rw [match_get_other m2 hn, match_get_other m1 (by simp [Re.names, Re.plus, Re.ws])]; rfl
    rw [e _ (by decide), e _ (by decide), e _ (by decide), e _ (by decide)]
    rw [opt_match_iff] at m3
    rcases m3 with m3 | ⟨_, rfl⟩
    · have m3 : Re.Match (.seq (.plus .ws) (.seq (amountRe (str "1") (str "1")) (.opt balanceRe))) _ _ c2 c3 := m3
      rw [seq_match_iff] at m3
      obtain ⟨_, _, c4, _, k1, m3⟩ := m3
      rw [seq_match_iff] at m3
      obtain ⟨_, _, c5, _, k2, k3⟩ := m3
      refine ⟨fun _ => ?_, fun hne => ?_⟩
      · rw [match_get_other k3 (by decide)]
        exact amount_commodity k2
      · rw [opt_match_iff] at k3
        rcases k3 with k3 | ⟨_, rfl⟩
        · have k3 : Re.Match (.seq (.plus .ws) (.seq (.ch '=') (.seq (.plus .ws) (amountRe (str "2") (str "2"))))) _ _ c5 c3 := k3
          rw [seq_match_iff] at k3
          obtain ⟨_, _, _, _, _, k3⟩ := k3
          rw [seq_match_iff] at k3
          obtain ⟨_, _, _, _, _, k3⟩ := k3
          rw [seq_match_iff] at k3
          obtain ⟨_, _, _, _, _, k3⟩ := k3
          exact amount_commodity k3
        · rw [match_get_other k2 (by decide), match_get_other k1 (by decide), e0 _ (by decide)] at hne
          exact absurd rfl hne
    · exact ⟨fun h => absurd (e0 _ (by decide)) h, fun h => absurd (e0 _ (by decide)) h⟩
  · have e0 : ∀ n, n ∉ noteLineRe.names → c.get n = [] := fun n hn => by rw [match_get_other hm hn]; rfl
    exact ⟨fun h => absurd (e0 _ (by decide)) h, fun h => absurd (e0 _ (by decide)) h⟩

/-! ### The first line of a transaction -/

/-- What the groups of the first line can contain. -/
structure HeadFacts (c : Caps) : Prop where
  code : ∀ x ∈ c.get (str "code"), isWord x = true
  description : c.get (str "description") = [] ∨ ∃ x t, c.get (str "description") = x :: t ∧ isWs x = false ∧ ∀ y ∈ t, y ≠ ';'
  noCode : c.get (str "code") = [] → ∀ w u, c.get (str "description") = '(' :: w ++ ')' :: u → w = [] ∨ ∃ x ∈ w, isWord x = false

theorem opt_done_some (a : Re) (k : ReK) (hk : ∀ s c, (k s c).isSome = true) (s : Str) (c : Caps) : ((Re.opt a).run k s c).isSome = true := by
  rw [run_opt, orElse_isSome, hk s c, Bool.or_true]

theorem head_facts {line : Str} {c : Caps} (h : transactionRe.matches line = some c) : HeadFacts c := by
  have hk1 : ∀ s c, ((Re.opt (noteRe (str "shortNote"))).run reDone s c).isSome = true := opt_done_some _ _ (fun _ _ => rfl)
  have hk2 : ∀ s c, ((Re.opt descriptionRe).run ((Re.opt (noteRe (str "shortNote"))).run reDone) s c).isSome = true := opt_done_some _ _ hk1
  -- the match starts at the beginning of some part of the line
  obtain ⟨s, post, hat⟩ : ∃ s post, transactionRe.matchAt s = some (c, post) := by
    unfold Re.matches at h
    obtain ⟨m, hm, rfl⟩ := Option.map_eq_some_iff.mp h
    obtain ⟨s1, _, _, hat⟩ := find_sound (pre := m.1) (c := m.2.1) (post := m.2.2) hm
    exact ⟨_, _, hat⟩
  have hrun : dateRe.run ((Re.opt codeRe).run ((Re.opt descriptionRe).run ((Re.opt (noteRe (str "shortNote"))).run reDone))) s [] = some (c, post) := hat
  obtain ⟨s1, s2, c1, rfl, m1, hrun⟩ := Re.run_sound _ _ _ _ _ hrun
  have code0 : c1.get (str "code") = [] := by rw [match_get_other m1 (by decide)]; rfl
  have desc0 : c1.get (str "description") = [] := by rw [match_get_other m1 (by decide)]; rfl
  rw [run_opt] at hrun
  -- the part after the code
  have rest : ∀ (t : Str) (c2 : Caps), c2.get (str "description") = [] →
      (Re.opt descriptionRe).run ((Re.opt (noteRe (str "shortNote"))).run reDone) t c2 = some (c, post) →
      c.get (str "code") = c2.get (str "code") ∧
      (c.get (str "description") = [] ∨ ∃ w x d u, t = w ++ (x :: d) ++ u ∧ w ≠ [] ∧ (∀ y ∈ w, isWs y = true) ∧ c.get (str "description") = x :: d ∧
        isWs x = false ∧ ∀ y ∈ d, y ≠ ';') := by
    intro t c2 hd0 hr
    obtain ⟨t1, t2, c3, rfl, k1, hr⟩ := Re.run_sound _ _ _ _ _ hr
    obtain ⟨t3, t4, c4, rfl, k2, hr⟩ := Re.run_sound _ _ _ _ _ hr
    simp only [reDone, Option.some.injEq, Prod.mk.injEq] at hr
    obtain ⟨rfl, rfl⟩ := hr
    refine ⟨by rw [match_get_other k2 (by decide), match_get_other k1 (by decide)], ?_⟩
    rw [match_get_other k2 (by decide)]
    rw [opt_match_iff] at k1
    rcases k1 with k1 | ⟨_, rfl⟩
    · right
      unfold descriptionRe at k1
      rw [seq_match_iff] at k1
      obtain ⟨w, v, c5, rfl, k3, k4⟩ := k1
      unfold Re.ws at k3
      rw [plus_cls_match_iff] at k3
      rw [grp_match_iff] at k4
      obtain ⟨c6, k4, rfl⟩ := k4
      rw [seq_match_iff] at k4
      obtain ⟨v1, v2, c7, rfl, k4, k5⟩ := k4
      unfold Re.notWs at k4
      rw [cls_match_iff] at k4
      rw [star_cls_match_iff] at k5
      obtain ⟨x, rfl, hx, _⟩ := k4
      refine ⟨w, x, v2, t3 ++ t4, by simp, k3.1, k3.2.1, by simp [Caps.get], by simpa using hx, ?_⟩
      intro y hy
      simpa using k5.1 y hy
    · exact .inl hd0
  cases hc : codeRe.run ((Re.opt descriptionRe).run ((Re.opt (noteRe (str "shortNote"))).run reDone)) s2 c1 with
  | some r =>
    rw [hc, orElse_some_left] at hrun
    cases hrun
    obtain ⟨t1, t2, c2, rfl, k1, hr⟩ := Re.run_sound _ _ _ _ _ hc
    have hd : c2.get (str "description") = [] := by rw [match_get_other k1 (by decide), desc0]
    obtain ⟨e1, e2⟩ := rest t2 c2 hd hr
    have hcode : c2.get (str "code") ≠ [] ∧ ∀ x ∈ c2.get (str "code"), isWord x = true := by
      have k1' : Re.Match (.seq (.plus .ws) (.seq (.ch '(') (.seq (.grp (str "code") (.plus .word)) (.ch ')')))) t1 t2 c1 c2 := k1
      clear k1
      rename' k1' => k1
      rw [seq_match_iff] at k1
      obtain ⟨_, _, _, _, _, k1⟩ := k1
      rw [seq_match_iff] at k1
      obtain ⟨_, _, _, _, _, k1⟩ := k1
      rw [seq_match_iff] at k1
      obtain ⟨v, _, _, _, k1, k2⟩ := k1
      rw [ch_match_iff] at k2
      obtain ⟨_, rfl⟩ := k2
      rw [grp_match_iff] at k1
      obtain ⟨_, k1, rfl⟩ := k1
      unfold Re.word at k1
      rw [plus_cls_match_iff] at k1
      have : ∀ c' : Caps, Caps.get ((str "code", v) :: c') (str "code") = v := by intro c'; simp [Caps.get]
      rw [this]
      exact ⟨k1.1, k1.2.1⟩
    refine ⟨by rw [e1]; exact hcode.2, ?_, ?_⟩
    · rcases e2 with e2 | ⟨w, x, d, u, _, _, _, e2, hx, hd⟩
      · exact .inl e2
      · exact .inr ⟨x, d, e2, hx, hd⟩
    · intro h0; rw [e1] at h0; exact absurd h0 hcode.1
  | none =>
    rw [hc, orElse_none_left] at hrun
    obtain ⟨e1, e2⟩ := rest s2 c1 desc0 hrun
    refine ⟨by rw [e1, code0]; simp, ?_, ?_⟩
    · rcases e2 with e2 | ⟨w, x, d, u, _, _, _, e2, hx, hd⟩
      · exact .inl e2
      · exact .inr ⟨x, d, e2, hx, hd⟩
    · intro _ w u hwu
      by_contra hcon
      obtain ⟨hw0, hw⟩ := not_or.mp hcon
      have hword : ∀ x ∈ w, isWord x = true := by
        intro x hx
        by_contra hb
        exact hw ⟨x, hx, by simpa using hb⟩
      rcases e2 with e2 | ⟨b, x, d, r, e3, hb0, hb, e2, _, _⟩
      · rw [e2] at hwu; simp at hwu
      rw [e2] at hwu
      have hm : Re.Match codeRe (b ++ ('(' :: (w ++ [')']))) (u ++ r) c1 ((str "code", w) :: c1) := by
        have : Re.Match (.seq (.plus .ws) (.seq (.ch '(') (.seq (.grp (str "code") (.plus .word)) (.ch ')')))) (b ++ (['('] ++ (w ++ [')']))) (u ++ r) c1
            ((str "code", w) :: c1) := by
          refine .seq (by unfold Re.ws; rw [plus_cls_match_iff]; exact ⟨hb0, hb, rfl⟩) (.seq (by rw [ch_match_iff]; exact ⟨rfl, rfl⟩) (.seq (.grp ?_) (by rw [ch_match_iff]; exact ⟨rfl, rfl⟩)))
          unfold Re.word
          rw [plus_cls_match_iff]
          exact ⟨hw0, hword, rfl⟩
        exact this
      have := Re.run_complete hm _ (hk2 _ _)
      rw [show b ++ ('(' :: (w ++ [')'])) ++ (u ++ r) = s2 by rw [e3, hwu]; simp, hc] at this
      exact absurd this (by decide)

/-! ### Transactions -/

/-- The commodities are kept under their id. -/
def ById (coms : Str → Option Com) : Prop := ∀ id c, coms id = some c → c.id = id

theorem lookup_byId (st : LoadState) : ById st.lookup := by
  intro id c h
  unfold LoadState.lookup at h
  simpa using List.find?_some h

/-- What parsing guarantees of a posting. -/
structure ReadPost (coms : Str → Option Com) (p : PPost) : Prop where
  account : p.account = [] ∨ AccountName p.account
  quantity : ∀ q, p.quantity = some q → CommodityName q.com.id ∧ coms q.com.id = some q.com
  balance : ∀ q, p.balance = some q → CommodityName q.com.id ∧ coms q.com.id = some q.com
  notes : ∀ n ∈ p.notes, n ≠ [] ∧ noNl n

/-- What parsing guarantees of a transaction. -/
structure ReadTxn (coms : Str → Option Com) (t : PTxn) : Prop where
  code : ∀ x ∈ t.code, isWord x = true
  description : t.description = [] ∨ (noNl t.description ∧ (∀ x ∈ t.description.tail, x ≠ ';') ∧ (∀ x u, t.description = x :: u → isWs x = false) ∧
    ∀ x, t.description.getLast? = some x → x ≠ ' ' ∧ x ≠ '\t')
  noCode : t.code = [] → ∀ w u, t.description = '(' :: w ++ ')' :: u → w = [] ∨ ∃ x ∈ w, isWord x = false
  notes : ∀ n ∈ t.notes, n ≠ [] ∧ noNl n
  postings : ∀ p ∈ t.postings, ReadPost coms p

theorem optAmount_read {env : PEnv} (hid : ById env.coms) {amt com : Str} {r : Option Amount} (hc : amt ≠ [] → CommodityName com)
    (h : optAmount env amt com = .ok r) : ∀ q, r = some q → CommodityName q.com.id ∧ env.coms q.com.id = some q.com := by
  intro q hq
  unfold optAmount at h
  split at h
  · cases h; cases hq
  · next hne =>
    obtain ⟨c, h1, h⟩ := bind_ok.mp h
    obtain ⟨a, h2, h⟩ := bind_ok.mp h
    cases h; cases hq
    have e := parseAmount_com h2
    unfold mustFindCommodity at h1
    split at h1
    · next c' hc' =>
      cases h1
      rw [e, hid _ _ hc']
      exact ⟨hc hne, hc'⟩
    · cases h1

theorem trimLeft_sub (s : Str) : ∀ x ∈ trimLeft s, x ∈ s := fun _ hx => (List.dropWhile_suffix _).subset hx

theorem shortNotes_read {line : Str} {r : Re} {c : Caps} {n : Str} (hl : noNl line) (h : r.matches line = some c) :
    ∀ x ∈ shortNotes (c.get n), x ≠ [] ∧ noNl x := by
  intro x hx
  unfold shortNotes at hx
  split at hx
  · cases hx
  · next hne =>
    simp only [List.mem_singleton] at hx
    subst hx
    exact ⟨hne, fun y hy => hl y (matches_sub h y (trimLeft_sub _ y hy))⟩

theorem mem_attachLast {ps : List PPost} {notes : List Str} {p : PPost} (h : p ∈ attachLast ps notes) :
    ∃ p0 ∈ ps, p = p0 ∨ p = { p0 with notes := p0.notes ++ notes } := by
  induction ps with
  | nil => cases h
  | cons a ps ih =>
    cases ps with
    | nil => simp only [attachLast, List.mem_singleton] at h; exact ⟨a, by simp, .inr h⟩
    | cons b ps =>
      simp only [attachLast, List.mem_cons] at h
      rcases h with rfl | h
      · exact ⟨p, by simp, .inl rfl⟩
      · obtain ⟨p0, hp, h⟩ := ih (by simpa [attachLast] using h)
        exact ⟨p0, by simp [hp], h⟩

theorem ReadPost.attach {coms : Str → Option Com} {ps : List PPost} {notes : List Str} (h : ∀ p ∈ ps, ReadPost coms p)
    (hn : ∀ n ∈ notes, n ≠ [] ∧ noNl n) : ∀ p ∈ attachLast ps notes, ReadPost coms p := by
  intro p hp
  obtain ⟨p0, h0, rfl | rfl⟩ := mem_attachLast hp
  · exact h _ h0
  · have := h _ h0
    refine ⟨this.account, this.quantity, this.balance, ?_⟩
    intro n hm
    rcases List.mem_append.mp hm with hm | hm
    · exact this.notes n hm
    · exact hn n hm

theorem finish_read {coms : Str → Option Com} {tn : List Str} {ps : List PPost} {pending : List Str} {r : List Str × List PPost}
    (h : finishPostings tn ps pending = .ok r) (ht : ∀ n ∈ tn, n ≠ [] ∧ noNl n) (hp : ∀ p ∈ ps, ReadPost coms p) (hn : ∀ n ∈ pending, n ≠ [] ∧ noNl n) :
    (∀ n ∈ r.1, n ≠ [] ∧ noNl n) ∧ ∀ p ∈ r.2, ReadPost coms p := by
  unfold finishPostings at h
  split at h
  · cases h; exact ⟨ht, hp⟩
  · split at h
    · cases h
    · cases h; exact ⟨ht, ReadPost.attach hp hn⟩

theorem postingLoop_read {env : PEnv} (hid : ById env.coms) (lines : List Str) (tn : List Str) (ps : List PPost) (pending : List Str)
    {r : (List Str × List PPost) × List Str} (h : postingLoop env tn ps pending lines = .ok r) (hl : ∀ l ∈ lines, noNl l)
    (ht : ∀ n ∈ tn, n ≠ [] ∧ noNl n) (hp : ∀ p ∈ ps, ReadPost env.coms p) (hn : ∀ n ∈ pending, n ≠ [] ∧ noNl n) :
    (∀ n ∈ r.1.1, n ≠ [] ∧ noNl n) ∧ ∀ p ∈ r.1.2, ReadPost env.coms p := by
  induction lines generalizing tn ps pending with
  | nil =>
    unfold postingLoop at h
    obtain ⟨q, h1, h⟩ := bind_ok.mp h
    cases h
    exact finish_read h1 ht hp hn
  | cons line rest ih =>
    unfold postingLoop at h
    split at h
    · obtain ⟨q, h1, h⟩ := bind_ok.mp h
      cases h
      exact finish_read h1 ht hp hn
    · next c hm =>
      have hline := hl line (by simp)
      split at h
      · next hnote =>
        refine ih _ _ _ h (fun l h => hl l (by simp [h])) ht hp ?_
        intro n hx
        rcases List.mem_append.mp hx with hx | hx
        · exact hn n hx
        · simp only [List.mem_singleton] at hx
          subst hx
          exact ⟨hnote, fun y hy => hline y (matches_sub hm y hy)⟩
      · obtain ⟨q, h1, h⟩ := bind_ok.mp h
        obtain ⟨b, h2, h⟩ := bind_ok.mp h
        have hc := posting_commodities hm
        have ha : (∀ n ∈ (attach tn ps pending).1, n ≠ [] ∧ noNl n) ∧ ∀ p ∈ (attach tn ps pending).2, ReadPost env.coms p := by
          unfold Verif.attach
          split
          · refine ⟨?_, by simp⟩
            intro n hx
            rcases List.mem_append.mp hx with hx | hx
            · exact ht n hx
            · exact hn n hx
          · exact ⟨ht, ReadPost.attach hp hn⟩
        refine ih _ _ _ h (fun l h => hl l (by simp [h])) ha.1 ?_ (by simp)
        intro p hx
        rcases List.mem_append.mp hx with hx | hx
        · exact ha.2 p hx
        · simp only [List.mem_singleton] at hx
          subst hx
          refine ⟨?_, optAmount_read hid hc.1 h1, optAmount_read hid hc.2 h2, shortNotes_read hline hm⟩
          by_cases h0 : c.get (str "account") = []
          · exact .inl h0
          · exact .inr (posting_account hm h0)

theorem trimRight_prefix (s : Str) : ∃ u, s = trimRight s ++ u ∧ (∀ x ∈ u, x = ' ' ∨ x = '\t') ∧
    ∀ x, (trimRight s).getLast? = some x → x ≠ ' ' ∧ x ≠ '\t' := by
  unfold trimRight
  have e := List.takeWhile_append_dropWhile (p := fun c => decide (c = ' ') || decide (c = '\t')) (l := s.reverse)
  refine ⟨(s.reverse.takeWhile (fun c => decide (c = ' ') || decide (c = '\t'))).reverse, ?_, ?_, ?_⟩
  · rw [← List.reverse_append, e, List.reverse_reverse]
  · intro x hx
    have := List.mem_takeWhile_imp (List.mem_reverse.mp hx)
    simpa using this
  · intro x hx
    rw [List.getLast?_reverse] at hx
    have := List.head?_dropWhile_not (fun c => decide (c = ' ') || decide (c = '\t')) s.reverse
    rw [hx] at this
    simpa using this

/-- Every parsed transaction satisfies `ReadTxn`. -/
theorem parsed_read {env : PEnv} (hid : ById env.coms) {line : Str} {rest : List Str} {r : PTxn × List Str}
    (h : parseTransaction env line rest = .ok r) (hl : ∀ l ∈ line :: rest, noNl l) : ReadTxn env.coms r.1 := by
  unfold parseTransaction at h
  split at h
  · cases h
  next c hm =>
  obtain ⟨d, h1, h⟩ := bind_ok.mp h
  obtain ⟨q, h2, h⟩ := bind_ok.mp h
  cases h
  have hline := hl line (by simp)
  have hf := head_facts hm
  have hr := postingLoop_read hid rest _ _ _ h2 (fun l h => hl l (by simp [h])) (shortNotes_read hline hm) (by simp) (by simp)
  obtain ⟨u, e, hu, hlast⟩ := trimRight_prefix (c.get (str "description"))
  refine ⟨hf.code, ?_, ?_, hr.1, hr.2⟩
  · dsimp only
    rcases hf.description with h0 | ⟨x, t, e1, hx, ht⟩
    · left; rw [h0]; rfl
    · right
      have hsub : ∀ y ∈ trimRight (c.get (str "description")), y ∈ c.get (str "description") := by
        intro y hy; rw [e]; exact List.mem_append_left _ hy
      refine ⟨fun y hy => hline y (matches_sub hm y (hsub y hy)), ?_, ?_, hlast⟩
      · intro y hy
        cases hd : trimRight (c.get (str "description")) with
        | nil => rw [hd] at hy; cases hy
        | cons z v =>
          rw [hd] at hy e
          rw [e1] at e
          simp only [List.cons_append, List.cons.injEq] at e
          exact ht y (by rw [e.2]; exact List.mem_append_left _ hy)
      · intro z v hd
        rw [hd, e1] at e
        simp only [List.cons_append, List.cons.injEq] at e
        rw [← e.1]; exact hx
  · intro h0 w v hd
    dsimp only at h0 hd
    exact hf.noCode h0 w (v ++ u) (by rw [e, hd]; simp)

/-! ### Prices, accounts, commodities -/

/-- What parsing guarantees of a price. -/
structure ReadPrice (coms : Str → Option Com) (p : PPrice) : Prop where
  commodity : CommodityName p.commodityId
  currency : p.currencyId = p.value.com.id
  known : CommodityName p.value.com.id ∧ coms p.value.com.id = some p.value.com

theorem parsedPrice_read {env : PEnv} (hid : ById env.coms) {line : Str} {rest : List Str} {r : PPrice × List Str}
    (h : parsePrice env line rest = .ok r) : ReadPrice env.coms r.1 := by
  unfold parsePrice at h
  split at h
  · cases h
  next c hm =>
  obtain ⟨d, h1, h⟩ := bind_ok.mp h
  obtain ⟨cur, h2, h⟩ := bind_ok.mp h
  obtain ⟨v, h3, h⟩ := bind_ok.mp h
  cases h
  have e := parseAmount_com h3
  have hcoms : CommodityName (c.get (str "commodity1")) ∧ CommodityName (c.get (str "commodity2")) := by
    obtain ⟨pre, s1, post, rfl, k⟩ := matches_sound hm
    have k : Re.Match (.seq (.lit (str "P ")) (.seq dateRe (.seq (.plus .ws) (.seq (commodityRe (str "1")) (.seq (.plus .ws) (amountRe [] (str "2"))))))) s1 post [] c := k
    rw [seq_match_iff] at k
    obtain ⟨_, _, _, _, _, k⟩ := k
    rw [seq_match_iff] at k
    obtain ⟨_, _, _, _, _, k⟩ := k
    rw [seq_match_iff] at k
    obtain ⟨_, _, _, _, _, k⟩ := k
    rw [seq_match_iff] at k
    obtain ⟨v1, _, c1, _, k1, k⟩ := k
    rw [seq_match_iff] at k
    obtain ⟨_, _, c2, _, k2, k3⟩ := k
    refine ⟨?_, amount_commodity k3⟩
    rw [match_get_other k3 (by decide), match_get_other k2 (by decide)]
    unfold commodityRe at k1
    rw [grp_match_iff] at k1
    obtain ⟨c3, k1, rfl⟩ := k1
    have : Caps.get ((str "commodity" ++ str "1", v1) :: c3) (str "commodity1") = v1 := by simp [Caps.get, str]
    rw [this]
    exact commodity_match k1
  unfold mustFindCommodity at h2
  split at h2
  · next c' hc' =>
    cases h2
    have hi := hid _ _ hc'
    exact ⟨hcoms.1, by rw [e, hi], by rw [e, hi]; exact ⟨hcoms.2, hc'⟩⟩
  · cases h2

/-- What parsing guarantees of an account. -/
structure ReadAcct (a : PAcct) : Prop where
  name : a.fullName = [] ∨ AccountName a.fullName
  description : noNl a.description ∧ (∀ x t, a.description = x :: t → isWs x = false) ∧ a.description.length ≠ 1
  bank : ∀ x ∈ a.ofxBankId, isDigit x = true
  acct : ∀ x ∈ a.ofxAcctId, isDigit x = true
  csv : ∀ x ∈ a.csvAcctId, isWord x = true

theorem accountBody_groups : accountBodyRe.groups = [(str "note", .seq .notWs (.plus .any)), (str "commodity", .seq (.cls isAlpha) (.star .word))] ++ dateRe.groups ++
    [(str "ofx_bankid", .plus .digit), (str "ofx_acctid", .plus .digit), (str "csv_acctid", .plus .word)] := rfl

theorem dateRe_names : dateRe.groups.map (·.1) = dateRe.names := (Re.names_eq _).symm

/-- The group of an account's body line with this name. -/
theorem accountBody_group {line : Str} {c : Caps} (h : accountBodyRe.matches line = some c) {n : Str} {a : Re} (hn : c.get n ≠ []) (hd : n ∉ dateRe.names)
    (ha : ∀ b, (n, b) ∈ [(str "note", Re.seq .notWs (.plus .any)), (str "commodity", .seq (.cls isAlpha) (.star .word)),
      (str "ofx_bankid", .plus .digit), (str "ofx_acctid", .plus .digit), (str "csv_acctid", .plus .word)] → b = a) :
    ∃ rest c1 c2, Re.Match a (c.get n) rest c1 c2 := by
  obtain ⟨b, hb, hm⟩ := matches_get h hn
  rw [accountBody_groups] at hb
  have : b = a := by
    refine ha b ?_
    rcases List.mem_append.mp hb with hb | hb
    · rcases List.mem_append.mp hb with hb | hb
      · simp only [List.mem_cons, List.not_mem_nil, or_false] at hb ⊢
        rcases hb with hb | hb
        · exact .inl hb
        · exact .inr (.inl hb)
      · exact absurd (by rw [← dateRe_names]; exact List.mem_map.mpr ⟨_, hb, rfl⟩) hd
    · simp only [List.mem_cons, List.not_mem_nil, or_false] at hb ⊢
      exact .inr (.inr hb)
  subst this
  exact hm

theorem accountLine_read {env : PEnv} {a a' : PAcct} {line : Str} {c : Caps} (hm : accountBodyRe.matches line = some c) (hl : noNl line)
    (h : accountLine env a c = .ok a') (ha : ReadAcct a) : ReadAcct a' := by
  unfold accountLine at h
  split at h
  · next hn =>
    cases h
    refine ⟨ha.name, ?_, ha.bank, ha.acct, ha.csv⟩
    obtain ⟨_, _, _, k⟩ := accountBody_group hm hn (by decide) (a := .seq .notWs (.plus .any)) (by
      intro b hb
      simp only [List.mem_cons, Prod.mk.injEq, List.not_mem_nil, or_false] at hb
      simp (decide := true) only [true_and, false_and, or_false, false_or] at hb
      exact hb)
    refine ⟨fun y hy => hl y (matches_sub hm y hy), ?_⟩
    dsimp only
    rw [seq_match_iff] at k
    obtain ⟨s1, s2, _, e, k1, k2⟩ := k
    unfold Re.notWs at k1
    unfold Re.any at k2
    rw [cls_match_iff] at k1
    rw [plus_cls_match_iff] at k2
    obtain ⟨x, rfl, hx, _⟩ := k1
    rw [e]
    refine ⟨fun y t he => by cases he; simpa using hx, ?_⟩
    have := List.length_pos_iff.mpr k2.1
    simp only [List.singleton_append, List.length_cons]
    omega
  split at h
  · cases h; exact ⟨ha.name, ha.description, ha.bank, ha.acct, ha.csv⟩
  split at h
  · obtain ⟨_, _, h⟩ := bind_ok.mp h
    cases h; exact ⟨ha.name, ha.description, ha.bank, ha.acct, ha.csv⟩
  split at h
  · next hn =>
    cases h
    refine ⟨ha.name, ha.description, ?_, ha.acct, ha.csv⟩
    obtain ⟨_, _, _, k⟩ := accountBody_group hm hn (by decide) (a := .plus .digit) (by
      intro b hb
      simp only [List.mem_cons, Prod.mk.injEq, List.not_mem_nil, or_false] at hb
      simp (decide := true) only [true_and, false_and, or_false, false_or] at hb
      exact hb)
    unfold Re.digit at k
    rw [plus_cls_match_iff] at k
    exact k.2.1
  split at h
  · next hn =>
    cases h
    refine ⟨ha.name, ha.description, ha.bank, ?_, ha.csv⟩
    obtain ⟨_, _, _, k⟩ := accountBody_group hm hn (by decide) (a := .plus .digit) (by
      intro b hb
      simp only [List.mem_cons, Prod.mk.injEq, List.not_mem_nil, or_false] at hb
      simp (decide := true) only [true_and, false_and, or_false, false_or] at hb
      exact hb)
    unfold Re.digit at k
    rw [plus_cls_match_iff] at k
    exact k.2.1
  split at h
  · next hn =>
    cases h
    refine ⟨ha.name, ha.description, ha.bank, ha.acct, ?_⟩
    obtain ⟨_, _, _, k⟩ := accountBody_group hm hn (by decide) (a := .plus .word) (by
      intro b hb
      simp only [List.mem_cons, Prod.mk.injEq, List.not_mem_nil, or_false] at hb
      simp (decide := true) only [true_and, false_and, or_false, false_or] at hb
      exact hb)
    unfold Re.word at k
    rw [plus_cls_match_iff] at k
    exact k.2.1
  · cases h; exact ha

theorem accountBody_keeps {env : PEnv} (lines : List Str) (a : PAcct) {r : PAcct × List Str} (h : accountBody env a lines = .ok r)
    (hl : ∀ l ∈ lines, noNl l) (ha : ReadAcct a) : ReadAcct r.1 := by
  induction lines generalizing a with
  | nil => unfold accountBody at h; cases h; exact ha
  | cons line rest ih =>
    unfold accountBody at h
    split at h
    · cases h; exact ha
    · split at h
      · cases h
      · next c hm =>
        obtain ⟨a', h1, h⟩ := bind_ok.mp h
        exact ih a' h (fun l h => hl l (by simp [h])) (accountLine_read hm (hl line (by simp)) h1 ha)

theorem parsedAcct_read {env : PEnv} {line : Str} {rest : List Str} {r : PAcct × List Str}
    (h : parseAccount env line rest = .ok r) (hl : ∀ l ∈ rest, noNl l) : ReadAcct r.1 := by
  unfold parseAccount at h
  refine accountBody_keeps rest _ h hl ⟨?_, by simp [noNl], by simp, by simp, by simp⟩
  dsimp only
  cases hm : accountHeadRe.matches line with
  | none => exact .inl rfl
  | some c =>
    right
    unfold getOr
    dsimp only
    obtain ⟨a, ha, _, _, _, k⟩ := matches_get hm (accountHead_name hm)
    have e : accountHeadRe.groups = [(str "account", .seq nameRe (.star (.seq (.ch ':') nameRe)))] := rfl
    rw [e] at ha
    simp only [List.mem_singleton, Prod.mk.injEq, true_and] at ha
    subst ha
    exact account_match k

/-- What parsing guarantees of a commodity. -/
structure ReadCom (x : PCom) : Prop where
  id : x.id = [] ∨ CommodityName x.id
  name : noNl x.name

theorem commodityBody_keeps (lines : List Str) (x : PCom) (d : Bool) {r : (PCom × Bool) × List Str} (h : commodityBody x d lines = .ok r)
    (hl : ∀ l ∈ lines, noNl l) (hx : ReadCom x) : ReadCom r.1.1 := by
  induction lines generalizing x d with
  | nil => unfold commodityBody at h; cases h; exact hx
  | cons line rest ih =>
    unfold commodityBody at h
    split at h
    · cases h; exact hx
    · split at h
      · cases h
      · next c hm =>
        obtain ⟨y, h1, h⟩ := bind_ok.mp h
        refine ih _ _ h (fun l h => hl l (by simp [h])) ?_
        unfold commodityLine at h1
        repeat' split at h1
        · cases h1; exact ⟨hx.id, fun z hz => hl line (by simp) z (matches_sub hm z hz)⟩
        · cases h1; exact ⟨hx.id, hx.name⟩
        · cases h1; exact ⟨hx.id, hx.name⟩
        · cases h1; exact ⟨hx.id, hx.name⟩
        · cases h1; exact hx
        · cases h1

theorem parsedCom_read {line : Str} {rest : List Str} {r : (PCom × Bool) × List Str} (h : parseCommodity line rest = .ok r) (hl : ∀ l ∈ rest, noNl l) :
    ReadCom r.1.1 := by
  unfold parseCommodity at h
  refine commodityBody_keeps rest _ _ h hl ⟨?_, by simp [noNl]⟩
  dsimp only
  cases hm : commodityHeadRe.matches line with
  | none => exact .inl rfl
  | some c =>
    unfold getOr
    dsimp only
    by_cases h0 : c.get (str "commodity") = []
    · exact .inl h0
    · right
      obtain ⟨a, ha, _, _, _, k⟩ := matches_get hm h0
      have e : commodityHeadRe.groups = [(str "commodity", .seq (.cls isAlpha) (.star .word))] := rfl
      rw [e] at ha
      simp only [List.mem_singleton, Prod.mk.injEq, true_and] at ha
      subst ha
      exact commodity_match k

/-! ### Files -/

/-- What loading guarantees of an item. -/
def ReadItem (coms : Str → Option Com) : Item → Prop
  | .transaction t => ReadTxn coms t
  | .price p => ReadPrice coms p
  | .account a => ReadAcct a
  | .commodity x => ReadCom x
  | _ => True

theorem ReadPost.mono {coms coms' : Str → Option Com} (hc : ∀ id c, coms id = some c → coms' id = some c) {p : PPost} (h : ReadPost coms p) :
    ReadPost coms' p :=
  ⟨h.account, fun q hq => ⟨(h.quantity q hq).1, hc _ _ (h.quantity q hq).2⟩, fun q hq => ⟨(h.balance q hq).1, hc _ _ (h.balance q hq).2⟩, h.notes⟩

theorem ReadItem.mono {coms coms' : Str → Option Com} (hc : ∀ id c, coms id = some c → coms' id = some c) {i : Item} (h : ReadItem coms i) : ReadItem coms' i := by
  cases i with
  | transaction t =>
    have h : ReadTxn coms t := h
    exact ⟨h.code, h.description, h.noCode, h.notes, fun p hp => (h.postings p hp).mono hc⟩
  | price p =>
    have h : ReadPrice coms p := h
    exact ⟨h.commodity, h.currency, h.known.1, hc _ _ h.known.2⟩
  | account a => exact h
  | commodity x => exact h
  | include_ p => trivial
  | test a b => trivial

theorem parsedItem_read {env : PEnv} (hid : ById env.coms) {line : Str} {rest : List Str} {r : ItemD × List Str}
    (h : parseItem env line rest = .ok r) (hl : ∀ l ∈ line :: rest, noNl l) : ReadItem env.coms r.1.1 := by
  have hr : ∀ l ∈ rest, noNl l := fun l h => hl l (by simp [h])
  unfold parseItem at h
  split at h
  · obtain ⟨_, _, h⟩ := bind_ok.mp h; cases h; trivial
  split at h
  · obtain ⟨_, h1, h⟩ := bind_ok.mp h; cases h; exact parsedAcct_read h1 hr
  split at h
  · obtain ⟨_, h1, h⟩ := bind_ok.mp h; cases h; exact parsedCom_read h1 hr
  split at h
  · obtain ⟨_, _, h⟩ := bind_ok.mp h; cases h; trivial
  split at h
  · obtain ⟨_, h1, h⟩ := bind_ok.mp h; cases h; exact parsedPrice_read hid h1
  split at h
  · obtain ⟨_, h1, h⟩ := bind_ok.mp h; cases h; exact parsed_read hid h1 hl
  · cases h

theorem next_read {env : PEnv} (hid : ById env.coms) (lines : List Str) {i : ItemD} {left : List Str} (h : next env lines = .ok (some i, left))
    (hl : ∀ l ∈ lines, noNl l) : ReadItem env.coms i.1 := by
  induction lines with
  | nil => cases h
  | cons line rest ih =>
    unfold next at h
    split at h
    · exact ih h (fun l h => hl l (by simp [h]))
    split at h
    · exact ih h (fun l h => hl l (by simp [h]))
    obtain ⟨r, h1, h⟩ := bind_ok.mp h
    cases h
    exact parsedItem_read hid h1 hl

theorem lookup_suffix {st l : LoadState} (hs : st.coms <:+ l.coms) (hn : (l.coms.map (·.id)).Nodup) (id : Str) (c : Com)
    (h : st.lookup id = some c) : l.lookup id = some c := by
  have hid := lookup_byId st id c h
  have hm : c ∈ l.coms := hs.subset (List.mem_of_find?_eq_some h)
  unfold LoadState.lookup
  subst hid
  generalize l.coms = cs at *
  clear h hs
  induction cs with
  | nil => cases hm
  | cons d cs ih =>
    simp only [List.map_cons, List.nodup_cons] at hn
    rcases List.mem_cons.mp hm with rfl | hm
    · simp
    · have hne : d.id ≠ c.id := fun e => hn.1 (by rw [e]; exact List.mem_map.mpr ⟨c, hm, rfl⟩)
      rw [List.find?_cons_of_neg (by simpa using hne)]
      exact ih hn.2 hm

theorem loadLines_read (today : Today) (n : Nat) (st : LoadState) (lines : List Str) {l : LoadState} (h : loadLines today n st lines = .ok l)
    (hl : ∀ x ∈ lines, noNl x) : st.coms <:+ l.coms ∧ ((l.coms.map (·.id)).Nodup → (∀ i ∈ st.items, ReadItem l.lookup i) → ∀ i ∈ l.items, ReadItem l.lookup i) := by
  induction n generalizing st lines with
  | zero => cases h; exact ⟨List.suffix_rfl, fun _ h => h⟩
  | succ n ih =>
    unfold loadLines at h
    split at h
    · cases h
    · cases h
    · cases h; exact ⟨List.suffix_rfl, fun _ h => h⟩
    · next i rest hn =>
      obtain ⟨st', h1, h⟩ := bind_ok.mp h
      have hsuf := (next_ok (known := fun _ => True) _ hn).1
      have hri := next_read (lookup_byId st) _ hn hl
      obtain ⟨k1, k2⟩ := ih st' rest h (fun x hx => hl x (hsuf.subset hx))
      have hst : st.coms <:+ st'.coms ∧ st'.items = st.items ++ [i.1] := by
        unfold storeItem at h1
        split at h1
        · cases h1; exact ⟨List.suffix_cons _ _, rfl⟩
        · split at h1
          · cases h1
          · cases h1; exact ⟨List.suffix_rfl, rfl⟩
        · cases h1; exact ⟨List.suffix_rfl, rfl⟩
      refine ⟨hst.1.trans k1, fun hnd hold => k2 hnd ?_⟩
      rw [hst.2]
      intro j hj
      rcases List.mem_append.mp hj with hj | hj
      · exact hold j hj
      · simp only [List.mem_singleton] at hj
        subst hj
        exact hri.mono (lookup_suffix (hst.1.trans k1) hnd)

/-- Loaded accounts have names. -/
theorem loadLines_names (today : Today) (n : Nat) (st : LoadState) (lines : List Str) {l : LoadState} (h : loadLines today n st lines = .ok l)
    (h0 : ∀ a, Item.account a ∈ st.items → a.fullName ≠ []) : ∀ a, Item.account a ∈ l.items → a.fullName ≠ [] := by
  induction n generalizing st lines with
  | zero => cases h; exact h0
  | succ n ih =>
    unfold loadLines at h
    split at h
    · cases h
    · cases h
    · cases h; exact h0
    · next i rest hn =>
      obtain ⟨st', h1, h⟩ := bind_ok.mp h
      refine ih st' rest h ?_
      intro a ha
      unfold storeItem at h1
      split at h1
      · next x hx =>
        cases h1
        rcases List.mem_append.mp ha with ha | ha
        · exact h0 a ha
        · simp only [List.mem_singleton] at ha; rw [hx] at ha; cases ha
      · next x hx =>
        split at h1
        · cases h1
        · next hne =>
          cases h1
          rcases List.mem_append.mp ha with ha | ha
          · exact h0 a ha
          · simp only [List.mem_singleton] at ha; rw [hx] at ha; cases ha; exact hne
      · next hx =>
        cases h1
        rcases List.mem_append.mp ha with ha | ha
        · exact h0 a ha
        · simp only [List.mem_singleton] at ha; exact absurd ha.symm (hx a)

theorem scanLines_noNl (s : Str) : ∀ l ∈ scanLines s, noNl l := by
  intro l hl
  unfold scanLines at hl
  obtain ⟨x, hx, rfl⟩ := List.mem_map.mp hl
  have hx : x ∈ splitOn '\n' s := by
    split at hx
    · exact List.mem_of_mem_dropLast hx
    · exact hx
  have := splitOn_noColon '\n' s x hx
  intro y hy e
  subst e
  unfold dropCR at hy
  split at hy
  · exact this (List.mem_of_mem_dropLast hy)
  · exact this hy

/-! ## C147: what is loaded survives being written -/

/-! ### Specification: what has to be required of a loaded item -/

/-- The number written for the amount has at most 50 decimals, and its digits fit 64 bits. -/
def FitsText (a : Amount) : Prop := a.com.decimals ≤ 50 ∧ -(2 ^ 63) ≤ a.int ∧ a.int < 2 ^ 63

/-- No note starts with a blank or tab or ends in a carriage return. -/
def SafeNotes (ns : List Str) : Prop := ∀ n ∈ ns, n.head? ≠ some ' ' ∧ n.head? ≠ some '\t' ∧ n.getLast? ≠ some '\r'

/-- A year of three or four digits. -/
def PlainYear (d : Int) : Prop := 100 ≤ goYear d ∧ goYear d ≤ 9999

/-- What is required of a transaction, apart from having accounts and quantities. -/
structure Settled (t : PTxn) : Prop where
  year : PlainYear t.posted
  description : t.description.getLast? ≠ some '\r'
  /-- notes need a description before them -/
  noNotes : t.description = [] → t.notes = []
  notes : SafeNotes t.notes
  some_posting : t.postings ≠ []
  pnotes : ∀ p ∈ t.postings, SafeNotes p.notes
  amounts : ∀ p ∈ t.postings, ∀ q, p.quantity = some q ∨ p.balance = some q → FitsText q

/-- Every posting has an account and a quantity. -/
def Full (t : PTxn) : Prop := ∀ p ∈ t.postings, p.account ≠ [] ∧ ∃ q, p.quantity = some q

/-! ### Proofs -/

theorem canonNote_of {n : Str} (h : n ≠ [] ∧ noNl n) (hs : n.head? ≠ some ' ' ∧ n.head? ≠ some '\t' ∧ n.getLast? ≠ some '\r') : CanonNote n := by
  refine ⟨h.1, h.2, ?_, hs.2.2⟩
  rintro x t rfl
  exact ⟨fun e => hs.1 (by rw [e]; rfl), fun e => hs.2.1 (by rw [e]; rfl)⟩

theorem read_canon {coms : Str → Option Com} {t : PTxn} (h : ReadTxn coms t) (hs : Settled t) (hf : Full t) : CanonTxn coms t where
  year := hs.year
  code := h.code
  description := by
    rcases h.description with h0 | ⟨h1, h2, h3, h4⟩
    · exact .inl h0
    · refine .inr ⟨h1, h2, h3, fun x hx => ⟨(h4 x hx).1, (h4 x hx).2, ?_⟩⟩
      rintro rfl
      exact hs.description hx
  noCode := h.noCode
  noNotes := hs.noNotes
  notes n hn := canonNote_of (h.notes n hn) (hs.notes n hn)
  some_posting := hs.some_posting
  postings p hp := by
    have hr := h.postings p hp
    obtain ⟨ha, q, hq⟩ := hf p hp
    refine ⟨hr.account.resolve_left ha, ⟨q, hq, ?_⟩, ?_, fun n hn => canonNote_of (hr.notes n hn) (hs.pnotes p hp n hn)⟩
    · obtain ⟨f1, f2, f3⟩ := hs.amounts p hp q (.inl hq)
      exact ⟨f1, f2, f3, hr.quantity q hq⟩
    · intro b hb
      obtain ⟨f1, f2, f3⟩ := hs.amounts p hp b (.inr hb)
      exact ⟨f1, f2, f3, hr.balance b hb⟩

theorem loaded_read {today : Today} {st l : LoadState} {text : Str} (h : loadText today st text = .ok l) (h0 : st.items = [])
    (hn : (l.coms.map (·.id)).Nodup) : ∀ i ∈ l.items, ReadItem l.lookup i :=
  (loadLines_read today _ st _ h (scanLines_noNl text)).2 hn (by rw [h0]; simp)

theorem mem_txns {items : List Item} {t : PTxn} : t ∈ items.filterMap itemTxn ↔ Item.transaction t ∈ items := by
  rw [List.mem_filterMap]
  constructor
  · rintro ⟨i, hi, h⟩
    cases i <;> cases h
    exact hi
  · intro h; exact ⟨_, h, rfl⟩

/-- **C147** Load any text. If every transaction loaded is settled and has its accounts and quantities, the transactions can be
written, and loading what was written yields exactly the same transactions in the same order. -/
theorem C147_transactions (today : Today) (dec : Str → Nat) (st l : LoadState) (text : Str) (h0 : st.items = []) (h : loadText today st text = .ok l)
    (hn : (l.coms.map (·.id)).Nodup) (hs : ∀ t, Item.transaction t ∈ l.items → Settled t ∧ Full t) :
    ∃ lines, writeTxns dec (l.items.filterMap itemTxn) = .ok lines ∧
      loadText today { l with items := [] } (textOf lines) = .ok { l with items := (l.items.filterMap itemTxn).map Item.transaction } := by
  have := C53_file_read_back today dec { l with items := [] } (l.items.filterMap itemTxn) (by
    intro t ht
    have ht := mem_txns.mp ht
    exact read_canon (loaded_read h h0 hn _ ht) (hs t ht).1 (hs t ht).2)
  simpa using this

/-- **C147** A loaded account whose closing date has a year of three or four digits, whose description does not end in a carriage return and
whose commodity is one reads back as it was. -/
theorem C147_accounts (today : Today) (env : PEnv) (st l : LoadState) (text : Str) (h0 : st.items = []) (h : loadText today st text = .ok l)
    (hn : (l.coms.map (·.id)).Nodup) (a : PAcct) (ha : Item.account a ∈ l.items) (hd : a.description.getLast? ≠ some '\r')
    (hcl : ∀ d, a.closed = some d → PlainYear d) (hcom : CommodityName a.commodityId) :
    next env (scanLines (textOf (writeAccount a))) = .ok (some (.account a, false), []) := by
  have hr : ReadAcct a := loaded_read h h0 hn _ ha
  have hname := loadLines_names today _ st _ h (by rw [h0]; simp) a ha
  exact C65_account_text env a ⟨hr.name.resolve_left hname, ⟨hr.description.1, hr.description.2.1, hd⟩, hr.description.2.2, hcom, hcl, hr.bank, hr.acct, hr.csv⟩

/-- **C147** A loaded price whose date has a year of three or four digits and whose number fits reads back as it was. -/
theorem C147_prices (today : Today) (st l : LoadState) (text : Str) (h0 : st.items = []) (h : loadText today st text = .ok l)
    (hn : (l.coms.map (·.id)).Nodup) (p : PPrice) (hp : Item.price p ∈ l.items) (hy : PlainYear p.time) (hv : FitsText p.value) (rest : List Str) :
    ∃ line, writePrice p = .ok [line] ∧ CleanLine line ∧ next ⟨today, l.lookup, l.dflt⟩ (line :: rest) = .ok (some (.price p, false), rest) := by
  have hr : ReadPrice l.lookup p := loaded_read h h0 hn _ hp
  exact C65_price ⟨today, l.lookup, l.dflt⟩ p ⟨hy, hr.commodity, ⟨hv.1, hv.2.1, hv.2.2, hr.known⟩, hr.currency⟩ rest

/-- **C147** A loaded commodity with an id, whose name does not start with white space or end in a carriage return, reads back as it was,
except for its symbol. -/
theorem C147_commodities (today : Today) (env : PEnv) (st l : LoadState) (text : Str) (h0 : st.items = []) (h : loadText today st text = .ok l)
    (hn : (l.coms.map (·.id)).Nodup) (x : PCom) (hx : Item.commodity x ∈ l.items) (hid : x.id ≠ []) (hs : ∀ c t, x.name = c :: t → isWs c = false)
    (he : x.name.getLast? ≠ some '\r') :
    next env (scanLines (textOf (writeCommodity x))) = .ok (some (.commodity { x with symbol := [] }, false), []) := by
  have hr : ReadCom x := loaded_read h h0 hn _ hx
  exact C65_commodity_text_partial env x ⟨hr.id.resolve_left hid, hr.name, hs, he⟩

/-! ## C148: what `format` writes is accepted again and final -/

/-- Quantities after resolution are those read, or in the commodity of an account. -/
theorem resolved_amounts {env : Env} {l ps : List PPost} (h : resolvePostings env l = .ok ps) :
    ∀ q ∈ ps, ∃ p ∈ l, q.balance = p.balance ∧ q.notes = p.notes ∧ env.find p.account = .ok q.account ∧
      ∃ a, q.quantity = some a ∧ (p.quantity = some a ∨ ∃ n, a.com = env.comOf n) := by
  have hc := resolvePostings_completed h
  have key : ∀ q ∈ ps, ∀ a, q.quantity = some a → (∃ n, a.com = env.comOf n) ∨ ∃ p ∈ l, p.quantity = some a ∧ q.balance = p.balance ∧ q.notes = p.notes ∧
      env.find p.account = .ok q.account := by
    unfold resolvePostings at h
    obtain ⟨qs, h1, h2⟩ := bind_ok.mp h
    have hq := (mapM_ok _ _ _).mp h1
    have basic : ∀ q ∈ qs, ∀ a, q.quantity = some a → ∃ p ∈ l, p.quantity = some a ∧ q.balance = p.balance ∧ q.notes = p.notes ∧
        env.find p.account = .ok q.account := by
      intro q hqm a ha
      obtain ⟨p, hp, hpq⟩ := forall2_mem_right hq q hqm
      obtain ⟨n, hn, rfl⟩ := placePosting_ok.mp hpq
      exact ⟨p, hp, ha, rfl, rfl, hn⟩
    by_cases hm : mixedComs (qs.map (fun p => env.comOf p.account)) = true
    · rw [if_pos hm] at h2
      split at h2
      · cases h2; exact fun q hqm a ha => .inr (basic q hqm a ha)
      · cases h2
    · rw [if_neg hm] at h2
      cases hl : (qs.map (fun p => env.comOf p.account)).getLast? with
      | none => rw [hl] at h2; cases h2; exact fun q hqm a ha => .inr (basic q hqm a ha)
      | some c =>
        rw [hl] at h2
        simp only [] at h2
        obtain ⟨r, h3, h4⟩ := bind_ok.mp h2
        split at h4
        · cases h4
          intro q hqm a ha
          obtain ⟨q0, hq0, rfl⟩ := List.mem_map.mp hqm
          unfold fillQuantity at ha ⊢
          cases hqq : q0.quantity with
          | none =>
            rw [hqq] at ha
            simp only [Option.some.injEq] at ha
            obtain ⟨p, _, hp⟩ := List.mem_map.mp (List.mem_of_getLast? hl)
            exact .inl ⟨p.account, by rw [← ha, hp]; exact totalP_com _ _ _ _ _ h3⟩
          | some b =>
            rw [hqq] at ha
            simp only [] at ha ⊢
            exact .inr (basic q0 hq0 a ha)
        · split at h4
          · cases h4; exact fun q hqm a ha => .inr (basic q hqm a ha)
          · cases h4
  intro q hqm
  obtain ⟨p, hp, e1, e2, e3, e4, e5⟩ := forall2_mem_right hc q hqm
  obtain ⟨a, ha⟩ := Option.ne_none_iff_exists'.mp e5
  rcases key q hqm a ha with hn | ⟨p', hp', k1, k2, k3, k4⟩
  · exact ⟨p, hp, e2, e3, e1, a, ha, .inr hn⟩
  · exact ⟨p', hp', k2, k3, k4, a, ha, .inl k1⟩

/-- The accounts known to `format`: found names are account names, and every account's commodity is loaded. -/
structure GoodEnv (env : Env) (st : LoadState) : Prop where
  again : ∀ n a, env.find n = .ok a → env.find a = .ok a
  names : ∀ n a, env.find n = .ok a → AccountName a
  coms : ∀ n, CommodityName (env.comOf n).id ∧ st.lookup (env.comOf n).id = some (env.comOf n)

/-- **C148**, full statement: what `format` writes, `format` accepts. -/
def C148_Statement : Prop :=
  ∀ (today : Today) (env : Env) (st : LoadState) (text out : Str), GoodEnv env st → (st.coms.map (·.id)).Nodup → formatText today env false st text = .ok out →
    ∃ out', formatText today env false st out = .ok out'

/-- **C148** as far as it holds: when the file declares no commodities and what is written is settled, formatting the output again is
accepted and changes nothing. Accounts, quantities, commodities, codes and the shape of descriptions need no assumption: parsing and
resolving guarantee them. Missing: the conditions of `Settled`. -/
theorem C148_format_again_partial (today : Today) (env : Env) (st : LoadState) (text out : Str) (henv : GoodEnv env st)
    (hn : (st.coms.map (·.id)).Nodup) (h : formatText today env false st text = .ok out)
    (hcoms : ∀ l, loadText today { st with items := [] } text = .ok l → l.coms = st.coms)
    (hset : ∀ l ts, loadText today { st with items := [] } text = .ok l → formatTxns env false (l.items.filterMap itemTxn) = .ok ts → ∀ t ∈ ts, Settled t) :
    formatText today env false st out = .ok out := by
  refine C54_idempotent_partial today env false st text out henv.again h ?_
  intro l ts h1 h2 t ht
  have hs := hset l ts h1 h2 t ht
  have hc := hcoms l h1
  have hread := loaded_read h1 rfl (by rw [hc]; exact hn)
  have hlk : l.lookup = st.lookup := by funext id; unfold LoadState.lookup; rw [hc]
  rw [hlk] at hread
  unfold formatTxns resolveP at h2
  obtain ⟨ss, h3, h4⟩ := bind_ok.mp h2
  obtain ⟨rs, h5, h6⟩ := bind_ok.mp h3
  cases h6; cases h4
  obtain ⟨r, hr, rfl⟩ := List.mem_map.mp ht
  have hr : r ∈ rs := (stableSort_perm _ _).mem_iff.mp hr
  have e : trimTxn false r = r := rfl
  rw [e] at hs ⊢
  obtain ⟨t0, ht0, hres⟩ := forall2_mem_right ((mapM_ok _ _ _).mp h5) r hr
  have hrt : ReadTxn st.lookup t0 := hread _ (mem_txns.mp ht0)
  unfold resolvePTxn at hres
  obtain ⟨ps, h7, h8⟩ := bind_ok.mp hres
  cases h8
  have ham := resolved_amounts h7
  refine read_canon ⟨hrt.code, hrt.description, hrt.noCode, hrt.notes, ?_⟩ hs ?_
  · intro q hq
    obtain ⟨p, hp, e1, e2, e3, a, e4, e5⟩ := ham q hq
    have hp := hrt.postings p hp
    refine ⟨.inr (henv.names _ _ e3), ?_, by rw [e1]; exact hp.balance, by rw [e2]; exact hp.notes⟩
    intro b hb
    rw [e4] at hb
    cases hb
    rcases e5 with e5 | ⟨n, e5⟩
    · exact hp.quantity a e5
    · rw [e5]; exact henv.coms n
  · intro q hq
    obtain ⟨p, hp, e1, e2, e3, a, e4, e5⟩ := ham q hq
    refine ⟨?_, a, e4⟩
    obtain ⟨x, u, he, _⟩ := (henv.names _ _ e3).head
    rw [he]; simp

/-- An environment with two accounts. -/
def twoEnv : Env := ⟨[], fun _ => exCad, fun n => if n = str "A" ∨ n = str "B" then .ok n else .error .exit, fun _ a => .ok a⟩

theorem twoEnv_good : GoodEnv twoEnv exState := by
  refine ⟨?_, ?_, ?_⟩
  · intro n a h
    unfold twoEnv at h ⊢
    dsimp only at h ⊢
    split at h
    · next h0 => cases h; rw [if_pos h0]
    · cases h
  · intro n a h
    unfold twoEnv at h
    dsimp only at h
    split at h
    · next h0 =>
      cases h
      rcases h0 with rfl | rfl
      · exact .one ⟨'A', [], rfl, by decide, by simp⟩
      · exact .one ⟨'B', [], rfl, by decide, by simp⟩
    · cases h
  · intro n
    exact ⟨⟨'C', str "AD", rfl, by decide, by decide⟩, show exState.lookup (str "CAD") = some exCad by decide⟩

/-- False: the largest 64-bit number is accepted as an amount, but written with its decimals it no longer fits, and the formatted file
is rejected. -/
theorem C148_rejected_violated : ¬ C148_Statement := by
  intro h
  have e : formatText exToday twoEnv false exState (str "2000/01/01 x\n  A  9223372036854775807 CAD\n  B\n") =
      .ok (str "2000/01/01 x\n  A   9223372036854775807.00 CAD\n  B  -9223372036854775807.00 CAD\n\n") := by decide +kernel
  obtain ⟨out', h⟩ := h exToday twoEnv exState _ _ twoEnv_good (by decide) e
  have : formatText exToday twoEnv false exState (str "2000/01/01 x\n  A   9223372036854775807.00 CAD\n  B  -9223372036854775807.00 CAD\n\n") =
      .error .exit := by decide +kernel
  rw [this] at h
  cases h

/-! ### Concrete cases -/

/-- A file with irregular spacing, a code, notes, a missing quantity and an assertion. -/
def messyText : Str := str "2018/11/3 (A12)   Corner store; weekly #food\n ; second\n\tA ; with note\n  B  -10.5   CAD = -0.05 CAD trailing\n"

def messyOut : List PTxn := [⟨737000, str "A12", str "Corner store", [str "weekly #food", str "second"],
  [⟨str "A", some ⟨1050, exCad⟩, none, [str "with note"]⟩, ⟨str "B", some ⟨-1050, exCad⟩, some ⟨-5, exCad⟩, []⟩]⟩]

theorem messyOut_settled : ∀ t ∈ messyOut, Settled t ∧ Full t := by
  intro t ht
  unfold messyOut at ht
  simp only [List.mem_singleton] at ht
  subst ht
  refine ⟨⟨by unfold PlainYear; decide +kernel, by decide, by decide, by unfold SafeNotes; decide, by decide, ?_, ?_⟩, ?_⟩
  · intro p hp
    simp only [List.mem_cons, List.not_mem_nil, or_false] at hp
    rcases hp with rfl | rfl <;> (unfold SafeNotes; decide)
  · intro p hp q hq
    simp only [List.mem_cons, List.not_mem_nil, or_false] at hp
    rcases hp with rfl | rfl <;> rcases hq with hq | hq <;> cases hq <;> (unfold FitsText exCad; decide)
  · intro p hp
    simp only [List.mem_cons, List.not_mem_nil, or_false] at hp
    rcases hp with rfl | rfl
    · exact ⟨by decide, _, rfl⟩
    · exact ⟨by decide, _, rfl⟩

/-- The hypotheses of `C148_format_again_partial` are met by this file. -/
example : ∃ out, formatText exToday twoEnv false exState messyText = .ok out ∧ out ≠ messyText ∧ formatText exToday twoEnv false exState out = .ok out := by
  refine ⟨str "2018/11/03 (A12) Corner store ; weekly #food\n  ; second\n  A   10.50 CAD ; with note\n  B  -10.50 CAD = -0.05 CAD\n\n", by decide +kernel, by decide,
    C148_format_again_partial exToday twoEnv exState messyText _ twoEnv_good (by decide) (by decide +kernel) ?_ ?_⟩
  · intro l hl
    have : ((loadText exToday { exState with items := [] } messyText).toOption.map (·.coms)) = some exState.coms := by decide +kernel
    rw [hl] at this
    simpa [Except.toOption] using this
  · intro l ts h1 h2 t ht
    have e : (loadText exToday { exState with items := [] } messyText).toOption.map (fun l => formatTxns twoEnv false (l.items.filterMap itemTxn)) =
        some (.ok messyOut) := by decide +kernel
    rw [h1] at e
    simp only [Except.toOption, Option.map_some, Option.some.injEq] at e
    rw [h2] at e
    cases e
    exact (messyOut_settled t ht).1

/-- A file with a commodity, an account, a price and a transaction, all of which meet the hypotheses of C147. -/
def mixedText : Str := str "commodity CAD\n  note Canadian dollar\n  format 1.00 CAD\naccount A:B\n  note Cash\n  commodity CAD\nP 2020/1/2 XIU 25.5 CAD\n2020/01/03 x\n  A:B  1 CAD\n  C  -1 CAD\n"

example : ∃ l lines, loadText exToday ⟨[], [], []⟩ mixedText = .ok l ∧ l.items.length = 4 ∧ writeTxns (fun _ => 2) (l.items.filterMap itemTxn) = .ok lines ∧
    loadText exToday { l with items := [] } (textOf lines) = .ok { l with items := (l.items.filterMap itemTxn).map Item.transaction } := by
  have e : ∃ l, loadText exToday ⟨[], [], []⟩ mixedText = .ok l ∧ l.coms = [exCad] ∧ l.items.length = 4 ∧
      l.items.filterMap itemTxn = [⟨737426, [], str "x", [], [⟨str "A:B", some ⟨100, exCad⟩, none, []⟩, ⟨str "C", some ⟨-100, exCad⟩, none, []⟩]⟩] := by
    have : (loadText exToday ⟨[], [], []⟩ mixedText).toOption.map (fun l => (l.coms, l.items.length, l.items.filterMap itemTxn)) =
        some ([exCad], 4, [⟨737426, [], str "x", [], [⟨str "A:B", some ⟨100, exCad⟩, none, []⟩, ⟨str "C", some ⟨-100, exCad⟩, none, []⟩]⟩]) := by decide +kernel
    cases hl : loadText exToday ⟨[], [], []⟩ mixedText with
    | error f => rw [hl] at this; cases this
    | ok l =>
      rw [hl] at this
      simp only [Except.toOption, Option.map_some, Option.some.injEq, Prod.mk.injEq] at this
      exact ⟨l, rfl, this⟩
  obtain ⟨l, h1, h2, h3, h4⟩ := e
  obtain ⟨lines, k1, k2⟩ := C147_transactions exToday (fun _ => 2) _ l _ rfl h1 (by rw [h2]; decide) (by
    intro t ht
    have ht := mem_txns.mpr ht
    rw [h4] at ht
    simp only [List.mem_singleton] at ht
    subst ht
    refine ⟨⟨by unfold PlainYear; decide +kernel, by decide, by decide, by unfold SafeNotes; decide, by decide, ?_, ?_⟩, ?_⟩
    · intro p hp
      simp only [List.mem_cons, List.not_mem_nil, or_false] at hp
      rcases hp with rfl | rfl <;> (unfold SafeNotes; decide)
    · intro p hp q hq
      simp only [List.mem_cons, List.not_mem_nil, or_false] at hp
      rcases hp with rfl | rfl <;> rcases hq with hq | hq <;> cases hq <;> (unfold FitsText exCad; decide)
    · intro p hp
      simp only [List.mem_cons, List.not_mem_nil, or_false] at hp
      rcases hp with rfl | rfl
      · exact ⟨by decide, _, rfl⟩
      · exact ⟨by decide, _, rfl⟩)
  exact ⟨l, lines, h1, h3, k1, k2⟩

end Verif
