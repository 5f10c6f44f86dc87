import Verif.Model.TestCmd
import Verif.Props.RoundTrip
import Verif.Props.Load
/-
C92-C94: the test command.
-/
namespace Verif

/-! ## Specification -/

/-- The commands of the tests, executed in order, write these texts. -/
def Outputs (env : TestEnv) : Nat → List CTest → List Str → Prop
  | _, [], [] => True
  | k, t :: ts, o :: os => (∃ w ws, scanWords [] t.cmd = w :: ws ∧ env.aliases w = true ∧ env.run k (w :: ws) = .ok o) ∧ Outputs env (k + 1) ts os
  | _, _, _ => False

/-- The text made of the lines with a text inserted after each line; the lines are numbered from `first`. -/
def insertAfter (first : Nat) (res : Nat → Str) : List Str → Str
  | [] => []
  | l :: ls => l ++ '\n' :: res first ++ insertAfter (first + 1) res ls

/-- The output of the tests at a line of a file that have no result yet. -/
def missingAt (f : Str) (ts : List CTest) (os : List Str) (i : Nat) : Str :=
  ((ts.zip os).map (fun p : CTest × Str => if p.1.file = f ∧ p.1.line = i ∧ p.1.result = [] then p.2 else [])).flatten

/-- The tests of a file in the order of their lines. -/
def InFile (f : Str) (text : Str) (ts : List CTest) : Prop :=
  (∀ t ∈ ts, t.file = f ∧ 1 ≤ t.line ∧ t.line ≤ (scanLines text).length) ∧ ts.Pairwise (fun t u => t.line < u.line)

/-! ## Lemmas -/

theorem cutColon_append (a b : Str) (h : ':' ∉ a) : cutColon (a ++ ':' :: b) = (a, b) := by
  induction a with
  | nil => simp [cutColon]
  | cons c a ih =>
    simp only [List.mem_cons, not_or] at h
    rw [List.cons_append, cutColon, if_neg (fun e => h.1 e.symm), ih h.2]

theorem fileOf_eq {t : CTest} (h : ':' ∉ t.file) : fileOf t = t.file := by
  unfold fileOf CTest.location; rw [cutColon_append _ _ h]

theorem lineOf_eq {t : CTest} (h : ':' ∉ t.file) : lineOf t = t.line := by
  unfold lineOf CTest.location
  rw [cutColon_append _ _ h]
  simp only
  rw [if_pos ⟨by have := natStr_ne_nil t.line; exact this, natStr_allDigits t.line⟩, strNat_natStr]

theorem updateLoop_here {t : CTest} (h : ':' ∉ t.file) {off : Nat} (hl : t.line ≤ off) (lines : List Str) (ts : List CTest) :
    updateLoop lines off (t :: ts) = t.result ++ updateLoop lines off ts := by
  rw [updateLoop, lineOf_eq h, Nat.sub_eq_zero_of_le hl]
  simp [textOf]

theorem updateLoop_later {t : CTest} (h : ':' ∉ t.file) {off : Nat} (hl : off < t.line) (l : Str) (lines : List Str) (ts : List CTest) :
    updateLoop (l :: lines) off (t :: ts) = l ++ '\n' :: updateLoop lines (off + 1) (t :: ts) := by
  rw [updateLoop, updateLoop, lineOf_eq h]
  obtain ⟨m, hm⟩ : ∃ m, t.line - off = m + 1 := ⟨t.line - off - 1, by omega⟩
  have hm' : t.line - (off + 1) = m := by omega
  rw [hm, hm']
  simp only [List.take_succ_cons, List.drop_succ_cons, List.length_cons]
  rw [show textOf (l :: lines.take m) = l ++ '\n' :: textOf (lines.take m) by simp [textOf], show off + ((lines.take m).length + 1) = off + 1 + (lines.take m).length by omega]
  simp

theorem textOf_insert (first : Nat) (lines : List Str) : insertAfter first (fun _ => []) lines = textOf lines := by
  induction lines generalizing first with
  | nil => rfl
  | cons l ls ih => rw [insertAfter, ih]; simp [textOf]

theorem insertAfter_congr {r r' : Nat → Str} {first : Nat} {lines : List Str} (h : ∀ i, first ≤ i → r i = r' i) : insertAfter first r lines = insertAfter first r' lines := by
  induction lines generalizing first with
  | nil => rfl
  | cons l ls ih => rw [insertAfter, insertAfter, h first (Nat.le_refl _), ih (fun i hi => h i (by omega))]

/-- The results at a line. -/
def resultsAt (ts : List CTest) (i : Nat) : Str := (ts.map (fun t : CTest => if t.line = i then t.result else [])).flatten

theorem resultsAt_cons (t : CTest) (ts : List CTest) (i : Nat) : resultsAt (t :: ts) i = (if t.line = i then t.result else []) ++ resultsAt ts i := by
  simp [resultsAt]

theorem updateLoop_spec (lines : List Str) : ∀ (off : Nat) (ts : List CTest), (∀ t ∈ ts, ':' ∉ t.file ∧ off ≤ t.line ∧ t.line ≤ off + lines.length) →
    ts.Pairwise (fun t u => t.line < u.line) → updateLoop lines off ts = resultsAt ts off ++ insertAfter (off + 1) (resultsAt ts) lines := by
  induction lines with
  | nil =>
    intro off ts h hp
    cases ts with
    | nil => rfl
    | cons t ts =>
      have h0 := h t (by simp)
      have : ts = [] := by
        cases ts with
        | nil => rfl
        | cons u us =>
          have h1 := h u (by simp)
          have := List.rel_of_pairwise_cons hp (List.mem_cons_self ..)
          simp at h0 h1; omega
      subst this
      rw [updateLoop_here h0.1 (by simpa using h0.2.2), resultsAt_cons, if_pos (by have := h0.2.2; simp at this; omega), insertAfter]
      simp [updateLoop, textOf, resultsAt]
  | cons l lines ih =>
    -- when every test is after `off`
    have later : ∀ (off : Nat) (ts : List CTest), (∀ t ∈ ts, ':' ∉ t.file ∧ off < t.line ∧ t.line ≤ off + (l :: lines).length) →
        ts.Pairwise (fun t u => t.line < u.line) → updateLoop (l :: lines) off ts = insertAfter (off + 1) (resultsAt ts) (l :: lines) := by
      intro off ts h hp
      cases ts with
      | nil =>
        rw [updateLoop, ← textOf_insert (off + 1)]
        rfl
      | cons t ts =>
        have h0 := h t (by simp)
        rw [updateLoop_later h0.1 h0.2.1, ih (off + 1) (t :: ts) (by
          intro u hu
          have := h u hu
          simp only [List.length_cons] at this
          exact ⟨this.1, this.2.1, by omega⟩) hp]
        rw [insertAfter]
        simp
    intro off ts h hp
    cases ts with
    | nil => rw [later off [] (by simp) hp]; rfl
    | cons t ts =>
      have h0 := h t (by simp)
      rcases Nat.lt_or_ge off t.line with hl | hl
      · rw [later off (t :: ts) ?_ hp]
        · have : resultsAt (t :: ts) off = [] := by
            unfold resultsAt
            rw [List.flatten_eq_nil_iff]
            intro x hx
            obtain ⟨u, hu, rfl⟩ := List.mem_map.mp hx
            rw [if_neg]
            rcases List.mem_cons.mp hu with rfl | hu
            · omega
            · have := List.rel_of_pairwise_cons hp hu; omega
          rw [this]; rfl
        · intro u hu
          refine ⟨(h u hu).1, ?_, (h u hu).2.2⟩
          rcases List.mem_cons.mp hu with rfl | hu
          · exact hl
          · have := List.rel_of_pairwise_cons hp hu; omega
      · have he : t.line = off := by omega
        rw [updateLoop_here h0.1 hl, later off ts ?_ (List.pairwise_cons.mp hp).2, resultsAt_cons, if_pos he]
        · have : resultsAt ts off = [] := by
            unfold resultsAt
            rw [List.flatten_eq_nil_iff]
            intro x hx
            obtain ⟨u, hu, rfl⟩ := List.mem_map.mp hx
            have := List.rel_of_pairwise_cons hp hu
            rw [if_neg (by omega)]
          rw [this, List.append_nil]
          congr 1
          exact insertAfter_congr fun i hi => by rw [resultsAt_cons, if_neg (by omega)]; rfl
        · intro u hu
          have := List.rel_of_pairwise_cons hp hu
          exact ⟨(h u (by simp [hu])).1, by omega, (h u (by simp [hu])).2.2⟩

/-- The tests that get a result. -/
def pending (ts : List CTest) (os : List Str) : List CTest := (ts.zip os).filterMap (fun p : CTest × Str => if p.1.result = [] then some { p.1 with result := p.2 } else none)

theorem pending_cons (t : CTest) (ts : List CTest) (o : Str) (os : List Str) :
    pending (t :: ts) (o :: os) = (if t.result = [] then [{ t with result := o }] else []) ++ pending ts os := by
  unfold pending
  rw [List.zip_cons_cons, List.filterMap_cons]
  by_cases h : t.result = [] <;> simp [h]

theorem missingAt_cons (f : Str) (t : CTest) (ts : List CTest) (o : Str) (os : List Str) (i : Nat) :
    missingAt f (t :: ts) (o :: os) i = (if t.file = f ∧ t.line = i ∧ t.result = [] then o else []) ++ missingAt f ts os i := by simp [missingAt]

theorem resultsAt_pending {f : Str} (ts : List CTest) (hf : ∀ t ∈ ts, t.file = f) : ∀ (os : List Str) (i : Nat), resultsAt (pending ts os) i = missingAt f ts os i := by
  induction ts with
  | nil => intro os i; cases os <;> rfl
  | cons t ts ih =>
    intro os i
    cases os with
    | nil => rfl
    | cons o os =>
      rw [pending_cons, missingAt_cons, ← ih (fun t ht => hf t (by simp [ht])) os i]
      have := hf t (by simp)
      by_cases h : t.result = []
      · rw [if_pos h]; simp [resultsAt, h, this]
      · rw [if_neg h, if_neg (by simp [h])]; rfl

theorem pending_mem {ts : List CTest} {os : List Str} {u : CTest} (h : u ∈ pending ts os) : ∃ t ∈ ts, t.line = u.line ∧ t.file = u.file ∧ t.result = [] := by
  unfold pending at h
  obtain ⟨p, hp, h⟩ := List.mem_filterMap.mp h
  split at h
  · cases h; exact ⟨p.1, (List.of_mem_zip hp).1, rfl, rfl, by assumption⟩
  · cases h

theorem pending_pairwise {ts : List CTest} (h : ts.Pairwise (fun t u => t.line < u.line)) : ∀ (os : List Str), (pending ts os).Pairwise (fun t u => t.line < u.line) := by
  induction ts with
  | nil => intro os; exact List.Pairwise.nil
  | cons t ts ih =>
    intro os
    cases os with
    | nil => exact List.Pairwise.nil
    | cons o os =>
      rw [pending_cons]
      have hp := List.pairwise_cons.mp h
      split
      · refine List.Pairwise.cons ?_ (ih hp.2 os)
        intro u hu
        obtain ⟨v, hv, e, _⟩ := pending_mem hu
        show t.line < u.line
        rw [← e]; exact hp.1 v hv
      · exact ih hp.2 os

theorem pending_nil_iff {ts : List CTest} {os : List Str} (hl : ts.length = os.length) : pending ts os = [] ↔ ∀ t ∈ ts, t.result ≠ [] := by
  induction ts generalizing os with
  | nil => cases os <;> simp [pending]
  | cons t ts ih =>
    cases os with
    | nil => cases hl
    | cons o os =>
      rw [pending_cons, List.append_eq_nil_iff, ih (by simpa using hl)]
      by_cases h : t.result = [] <;> simp [h]

theorem outputs_length {env : TestEnv} {k : Nat} {ts : List CTest} {os : List Str} (h : Outputs env k ts os) : ts.length = os.length := by
  induction ts generalizing k os with
  | nil => cases os with
    | nil => rfl
    | cons => exact h.elim
  | cons t ts ih => cases os with
    | nil => exact h.elim
    | cons o os => simp [ih h.2]

theorem update_spec {d : Dir} {f text : Str} {ts : List CTest} {os : List Str} (hf : ':' ∉ f) (hd : d f = some text) (h : InFile f text ts)
    (hne : pending ts os ≠ []) :
    updateTestFile d (pending ts os) = .ok (d.put f (some (insertAfter 1 (missingAt f ts os) (scanLines text)))) := by
  have hm : ∀ u ∈ pending ts os, u.file = f ∧ 1 ≤ u.line ∧ u.line ≤ (scanLines text).length := by
    intro u hu
    obtain ⟨t, ht, e1, e2, _⟩ := pending_mem hu
    obtain ⟨h1, h2, h3⟩ := h.1 t ht
    exact ⟨by rw [← e2, h1], by omega, by omega⟩
  cases hp : pending ts os with
  | nil => exact absurd hp hne
  | cons u us =>
    have hu := hm u (by rw [hp]; simp)
    have hfu : fileOf u = f := by rw [fileOf_eq (by rw [hu.1]; exact hf), hu.1]
    unfold updateTestFile
    simp only
    rw [hfu, hd]
    simp only
    rw [← hp, updateLoop_spec _ 0 _ (fun t ht => ⟨by rw [(hm t ht).1]; exact hf, by omega, by have := (hm t ht).2.2; omega⟩) (pending_pairwise h.2 os)]
    have h0 : resultsAt (pending ts os) 0 = [] := by
      unfold resultsAt
      rw [List.flatten_eq_nil_iff]
      intro x hx
      obtain ⟨v, hv, rfl⟩ := List.mem_map.mp hx
      have := (hm v hv).2.1
      rw [if_neg (by omega)]
    rw [h0, List.nil_append]
    congr 4
    funext i
    exact resultsAt_pending ts (fun t ht => (h.1 t ht).1) os i

/-! ### The run -/

theorem verdict_files (env : TestEnv) (v : Bool) (old : Str) (s : TestRun) (t : CTest) (b : Str) : (testVerdict env v old s t b).files = s.files := by
  unfold testVerdict; repeat' split
  all_goals rfl
theorem verdict_last (env : TestEnv) (v : Bool) (old : Str) (s : TestRun) (t : CTest) (b : Str) : (testVerdict env v old s t b).last = s.last := by
  unfold testVerdict; repeat' split
  all_goals rfl
theorem verdict_pending (env : TestEnv) (v : Bool) (old : Str) (s : TestRun) (t : CTest) (b : Str) :
    (testVerdict env v old s t b).toUpdate = s.toUpdate ++ pending [t] [b] := by
  unfold testVerdict
  rw [pending_cons]
  repeat' split
  all_goals simp_all [pending]

theorem pending_append (ts us : List CTest) : ∀ (os qs : List Str), ts.length = os.length → pending (ts ++ us) (os ++ qs) = pending ts os ++ pending us qs := by
  intro os qs h
  unfold pending
  rw [List.zip_append h, List.filterMap_append]

theorem missingAt_append (f : Str) (ts us : List CTest) (os qs : List Str) (i : Nat) (h : ts.length = os.length) :
    missingAt f (ts ++ us) (os ++ qs) i = missingAt f ts os i ++ missingAt f us qs i := by
  unfold missingAt
  rw [List.zip_append h, List.map_append, List.flatten_append]

theorem missingAt_none {f : Str} {ts : List CTest} (h : ∀ t ∈ ts, t.file = f → t.result ≠ []) (os : List Str) (i : Nat) : missingAt f ts os i = [] := by
  unfold missingAt
  rw [List.flatten_eq_nil_iff]
  intro x hx
  obtain ⟨p, hp, rfl⟩ := List.mem_map.mp hx
  rw [if_neg]
  rintro ⟨h1, _, h2⟩
  exact h _ (List.of_mem_zip hp).1 h1 h2

/-- One test of the loop. -/
theorem loop_step {env : TestEnv} {v : Bool} {k : Nat} {s : TestRun} {t : CTest} {ts : List CTest} {o : Str} {os : List Str}
    (h : Outputs env k (t :: ts) (o :: os)) :
    testLoopRun env v k s (t :: ts) = (testMove s t).bind fun s' =>
      testLoopRun env v (k + 1) (testVerdict env v (if fileOf t ≠ s.last then s.last else []) s' t o) ts := by
  obtain ⟨⟨w, ws, h1, h2, h3⟩, _⟩ := h
  rw [testLoopRun]
  refine bind_congr' _ fun s' => ?_
  rw [h1]
  simp only
  rw [if_pos h2, h3]
  rfl

/-- The tests of a file follow each other. -/
def Consecutive (ts : List CTest) : Prop := ∀ a t b u c v d, ts = a ++ t :: b ++ u :: c ++ v :: d → t.file = v.file → u.file = t.file

open Classical in
/-- What becomes of a file with contents `c`: untouched unless one of its tests has no result. -/
noncomputable def filled (f : Str) (ts : List CTest) (os : List Str) (c : Option Str) : Option Str :=
  if ∃ t ∈ ts, t.file = f ∧ t.result = [] then c.map (fun text => insertAfter 1 (missingAt f ts os) (scanLines text)) else c

theorem flush_spec {s : TestRun} {p : List CTest} {q : List Str} {f : Str} (hl : p.length = q.length) (hf : ∀ t ∈ p, t.file = f) (hc : ':' ∉ f)
    (hs : s.toUpdate = pending p q) (hd : p ≠ [] → ∃ text, s.files f = some text ∧ InFile f text p) :
    ∃ s', s.flush = .ok s' ∧ s'.toUpdate = [] ∧ s'.last = s.last ∧ s'.out = s.out ∧ s'.success = s.success ∧ (∀ x, s'.files x = filled x p q (s.files x)) := by
  unfold TestRun.flush
  rw [hs]
  by_cases h : pending p q = []
  · rw [if_pos h]
    have hn := (pending_nil_iff hl).mp h
    refine ⟨s, rfl, by rw [hs, h], rfl, rfl, rfl, fun x => ?_⟩
    unfold filled
    rw [if_neg]
    rintro ⟨t, ht, _, h2⟩
    exact hn t ht h2
  · rw [if_neg h]
    have hp : p ≠ [] := by rintro rfl; exact h rfl
    obtain ⟨text, h1, h2⟩ := hd hp
    rw [update_spec hc h1 h2 h]
    refine ⟨_, rfl, rfl, rfl, rfl, rfl, fun x => ?_⟩
    have hex : ∃ t ∈ p, t.result = [] := by
      by_contra hh
      refine h ((pending_nil_iff hl).mpr fun t ht he => hh ⟨t, ht, he⟩)
    obtain ⟨t, ht, htr⟩ := hex
    show (if x = f then _ else _) = _
    unfold filled
    by_cases hx : x = f
    · subst hx
      rw [if_pos rfl, if_pos ⟨t, ht, hf t ht, htr⟩, h1]; rfl
    · rw [if_neg hx, if_neg]
      rintro ⟨t, ht, e, _⟩
      exact hx (by rw [← e, hf t ht])

theorem filled_congr {f : Str} {ts ts' : List CTest} {os os' : List Str} {c : Option Str}
    (h1 : (∃ t ∈ ts, t.file = f ∧ t.result = []) ↔ ∃ t ∈ ts', t.file = f ∧ t.result = []) (h2 : ∀ i, missingAt f ts os i = missingAt f ts' os' i) :
    filled f ts os c = filled f ts' os' c := by
  unfold filled
  have : missingAt f ts os = missingAt f ts' os' := funext h2
  rw [this]
  by_cases h : ∃ t ∈ ts, t.file = f ∧ t.result = []
  · rw [if_pos h, if_pos (h1.mp h)]
  · rw [if_neg h, if_neg (fun hh => h (h1.mpr hh))]

theorem loop_files {env : TestEnv} {v : Bool} : ∀ (ts : List CTest) (os : List Str) (k : Nat) (s : TestRun) (p : List CTest) (q : List Str),
    Outputs env k ts os → p.length = q.length → (∀ t ∈ p, t.file = s.last) → ':' ∉ s.last → s.toUpdate = pending p q → Consecutive (p ++ ts) →
    (∀ t ∈ p ++ ts, ':' ∉ t.file ∧ ∃ text, s.files t.file = some text ∧ InFile t.file text ((p ++ ts).filter (fun u => u.file = t.file))) →
    ∃ r, testLoopRun env v k s ts = .ok r ∧ ∀ x, r.files x = filled x (p ++ ts) (q ++ os) (s.files x) := by
  intro ts
  induction ts with
  | nil =>
    intro os k s p q ho hl hp hc hs hcon hd
    cases os with
    | cons => exact ho.elim
    | nil =>
      have hfil : ∀ l : List CTest, (∀ t ∈ l, t.file = s.last) → l.filter (fun u => u.file = s.last) = l := by
        intro l h; rw [List.filter_eq_self]; intro t ht; simp [h t ht]
      obtain ⟨s', h1, h2, h3, _, _, h4⟩ := flush_spec hl hp hc hs (by
        intro hne
        obtain ⟨t, ht⟩ := List.exists_mem_of_ne_nil p hne
        obtain ⟨_, text, e1, e2⟩ := hd t (by simp [ht])
        rw [hp t ht] at e1 e2
        rw [List.append_nil, hfil p hp] at e2
        exact ⟨text, e1, e2⟩)
      rw [testLoopRun, testEnd, h1]
      refine ⟨_, rfl, fun x => ?_⟩
      rw [List.append_nil, List.append_nil, ← h4]
      split <;> rfl
  | cons t ts ih =>
    intro os k s p q ho hl hp hc hs hcon hd
    cases os with
    | nil => exact ho.elim
    | cons o os =>
      have htf := (hd t (by simp)).1
      rw [loop_step ho]
      have hft := fileOf_eq htf
      by_cases hsame : t.file = s.last
      · unfold testMove
        rw [if_neg (by rw [hft, hsame]; simp)]
        have e : p ++ t :: ts = (p ++ [t]) ++ ts := by simp
        have e' : q ++ o :: os = (q ++ [o]) ++ os := by simp
        obtain ⟨r, h1, h2⟩ := ih os (k + 1) (testVerdict env v (if fileOf t ≠ s.last then s.last else []) s t o) (p ++ [t]) (q ++ [o]) ho.2 (by simp [hl])
          (by rw [verdict_last]; intro u hu; rcases List.mem_append.mp hu with hu | hu
              · exact hp u hu
              · rw [List.mem_singleton.mp hu]; exact hsame)
          (by rw [verdict_last]; exact hc)
          (by rw [verdict_pending, pending_append _ _ _ _ hl, hs])
          (by rw [← e]; exact hcon)
          (by rw [← e, verdict_files]; exact hd)
        refine ⟨r, h1, fun x => ?_⟩
        rw [h2 x, verdict_files, e, e']
      · -- another file
        have hfil : (p ++ t :: ts).filter (fun u => u.file = s.last) = p ++ (t :: ts).filter (fun u => u.file = s.last) := by
          rw [List.filter_append]
          congr 1
          rw [List.filter_eq_self]; intro t ht; simp [hp t ht]
        -- no further test of the old file
        have hno : p ≠ [] → ∀ u ∈ t :: ts, u.file ≠ s.last := by
          intro hne u hu he
          rcases List.mem_cons.mp hu with rfl | hu
          · exact hsame he
          · obtain ⟨p', w, rfl⟩ : ∃ p' w, p = p' ++ [w] := ⟨p.dropLast, p.getLast hne, (List.dropLast_append_getLast hne).symm⟩
            obtain ⟨c, d, rfl⟩ := List.append_of_mem hu
            have := hcon p' w [] t c u d (by simp) (by rw [he, hp w (by simp)])
            rw [hp w (by simp)] at this
            exact hsame this
        obtain ⟨s', g1, g2, g3, _, _, g4⟩ := flush_spec (s := { s with last := fileOf t }) (f := s.last) hl hp hc hs (by
          intro hne
          obtain ⟨u, hu⟩ := List.exists_mem_of_ne_nil p hne
          obtain ⟨_, text, e1, e2⟩ := hd u (by simp [hu])
          rw [hp u hu] at e1 e2
          refine ⟨text, e1, ?_⟩
          rw [hfil, List.filter_eq_nil_iff.mpr (fun u hu => by simpa using hno hne u hu), List.append_nil] at e2
          exact e2)
        unfold testMove
        rw [if_pos (by rw [hft]; exact hsame), g1]
        simp only at g4 g3
        have hfiles : ∀ u ∈ t :: ts, filled u.file p q (s.files u.file) = s.files u.file := by
          intro u hu
          unfold filled
          rw [if_neg]
          rintro ⟨w, hw, e, _⟩
          have hne : p ≠ [] := by rintro rfl; simp at hw
          exact hno hne u hu (by rw [← e, hp w hw])
        have hfil2 : ∀ u ∈ t :: ts, (p ++ t :: ts).filter (fun w => w.file = u.file) = (t :: ts).filter (fun w => w.file = u.file) := by
          intro u hu
          rw [List.filter_append, List.filter_eq_nil_iff.mpr, List.nil_append]
          intro w hw
          simp only [decide_eq_true_eq]
          intro e
          have hne : p ≠ [] := by rintro rfl; simp at hw
          exact hno hne u hu (by rw [← e, hp w hw])
        obtain ⟨r, h1, h2⟩ := ih os (k + 1) (testVerdict env v (if fileOf t ≠ s.last then s.last else []) s' t o) [t] [o] ho.2 rfl
          (by rw [verdict_last, g3]; intro u hu; rw [List.mem_singleton.mp hu, hft])
          (by rw [verdict_last, g3, hft]; exact htf)
          (by rw [verdict_pending, g2]; rfl)
          (by intro a x b y c z d e
              exact hcon (p ++ a) x b y c z d (by rw [show p ++ t :: ts = p ++ ([t] ++ ts) from rfl, e]; simp))
          (by
            intro u hu
            have hu' : u ∈ t :: ts := hu
            obtain ⟨h1, text, h2, h3⟩ := hd u (List.mem_append_right _ hu')
            refine ⟨h1, text, ?_, ?_⟩
            · rw [verdict_files, g4, hfiles u hu']; exact h2
            · rw [hfil2 u hu'] at h3; exact h3)
        refine ⟨r, h1, fun x => ?_⟩
        rw [h2 x, verdict_files, g4]
        by_cases hx : p ≠ [] ∧ x = s.last
        · obtain ⟨hne, rfl⟩ := hx
          have a1 : ∀ c, filled s.last ([t] ++ ts) ([o] ++ os) c = c := by
            intro c
            unfold filled
            rw [if_neg]
            rintro ⟨u, hu, e, _⟩
            exact hno hne u hu e
          rw [a1]
          refine filled_congr ⟨?_, ?_⟩ fun i => ?_
          · rintro ⟨u, hu, h⟩; exact ⟨u, by simp [hu], h⟩
          · rintro ⟨u, hu, h⟩
            rcases List.mem_append.mp hu with hu | hu
            · exact ⟨u, hu, h⟩
            · exact absurd h.1 (hno hne u hu)
          · rw [missingAt_append _ _ _ _ _ _ hl, missingAt_none (ts := t :: ts) (fun u hu e => absurd e (hno hne u hu)), List.append_nil]
        · have hpx : ∀ u ∈ p, u.file ≠ x := by
            intro u hu e
            refine hx ⟨by rintro rfl; simp at hu, by rw [← e, hp u hu]⟩
          have a2 : filled x p q (s.files x) = s.files x := by
            unfold filled
            rw [if_neg]
            rintro ⟨u, hu, e, _⟩
            exact hpx u hu e
          rw [a2]
          refine filled_congr ⟨?_, ?_⟩ fun i => ?_
          · rintro ⟨u, hu, h⟩; exact ⟨u, List.mem_append_right _ hu, h⟩
          · rintro ⟨u, hu, h⟩
            rcases List.mem_append.mp hu with hu | hu
            · exact absurd h.1 (hpx u hu)
            · exact ⟨u, hu, h⟩
          · rw [missingAt_append _ _ _ _ _ _ hl, missingAt_none (ts := p) (fun u hu e => absurd e (hpx u hu))]; rfl

/-! ## C93: the results are written below their tests -/

/-- Full statement of C93: if the commands of all tests complete, every file gets, directly below the first line of each of its tests that
has no result, the output of that test; nothing else in any file changes (a last line without end of line gets one). -/
def C93_Statement : Prop := ∀ (env : TestEnv) (v : Bool) (d : Dir) (ts : List CTest) (os : List Str), Outputs env 0 ts os →
  (∀ t ∈ ts, ':' ∉ t.file ∧ ∃ text, d t.file = some text ∧ InFile t.file text (ts.filter (fun u => u.file = t.file))) →
  ∃ r, testExecute env v d ts = .ok r ∧ ∀ x, r.files x = filled x ts os (d x)

/-- **C93 (partial)** True when the tests of each file follow each other. Missing: a file whose tests are separated by those of a file
it includes, see below. -/
theorem C93_results_partial (env : TestEnv) (v : Bool) (d : Dir) (ts : List CTest) (os : List Str) (ho : Outputs env 0 ts os)
    (hd : ∀ t ∈ ts, ':' ∉ t.file ∧ ∃ text, d t.file = some text ∧ InFile t.file text (ts.filter (fun u => u.file = t.file))) (hcon : Consecutive ts) :
    ∃ r, testExecute env v d ts = .ok r ∧ ∀ x, r.files x = filled x ts os (d x) := by
  unfold testExecute
  cases ts with
  | nil =>
    refine ⟨_, rfl, fun x => ?_⟩
    unfold filled
    rw [if_neg (by simp)]
  | cons t ts =>
    have ht := hd t (by simp)
    obtain ⟨r, h1, h2⟩ := loop_files (v := v) (t :: ts) os 0 ⟨[], [], true, fileOf t, d⟩ [] [] ho rfl (by simp) (by rw [fileOf_eq ht.1]; exact ht.1) rfl
      (by simpa using hcon) (by simpa using hd)
    exact ⟨r, h1, by simpa using h2⟩

/-- Commands that all write one line. -/
def exTestEnv : TestEnv := ⟨fun _ => true, fun _ _ => .ok (str "1\n"), fun a b => a ++ b⟩

/-- File `a` includes file `b` between its two tests. -/
def exTestA : Str := str "test x\nend test\ninclude b\ntest y\nend test\n"
def exTestB : Str := str "test z\nend test\n"
def exTestDir : Dir := fun n => if n = str "a" then some exTestA else if n = str "b" then some exTestB else none
def exTestsAB : List CTest := [⟨str "x", [], 1, str "a"⟩, ⟨str "z", [], 1, str "b"⟩, ⟨str "y", [], 4, str "a"⟩]

/-- **C93 is false** of the code: after the first update of `a` its line numbers are out of date, and the result of its second test goes
above that test; the file cannot be loaded any more. -/
theorem C93_results_violated : ¬ C93_Statement := by
  intro hst
  obtain ⟨r, h1, h2⟩ := hst exTestEnv false exTestDir exTestsAB [str "1\n", str "1\n", str "1\n"]
    ⟨⟨str "x", [], by decide +kernel, rfl, rfl⟩, ⟨str "z", [], by decide +kernel, rfl, rfl⟩, ⟨str "y", [], by decide +kernel, rfl, rfl⟩, trivial⟩ (by
      intro t ht
      simp only [exTestsAB, List.mem_cons, List.not_mem_nil, or_false] at ht
      rcases ht with rfl | rfl | rfl
      · exact ⟨by decide, exTestA, by decide, ⟨by decide +kernel, by decide +kernel⟩⟩
      · exact ⟨by decide, exTestB, by decide, ⟨by decide +kernel, by decide +kernel⟩⟩
      · exact ⟨by decide, exTestA, by decide, ⟨by decide +kernel, by decide +kernel⟩⟩)
  have hr : ((testExecute exTestEnv false exTestDir exTestsAB).toOption.map (fun r => r.files (str "a"))) =
      some (some (str "test x\n1\nend test\ninclude b\n1\ntest y\nend test\n")) := by decide +kernel
  rw [h1] at hr
  simp only [Except.toOption, Option.map_some, Option.some.injEq] at hr
  rw [h2] at hr
  unfold filled at hr
  rw [if_pos ⟨⟨str "x", [], 1, str "a"⟩, by simp [exTestsAB], rfl, rfl⟩] at hr
  exact absurd hr (by decide +kernel)

/-- Non-vacuity of the partial theorem: two files, one after the other. -/
example : ∃ r, testExecute exTestEnv false exTestDir [⟨str "z", [], 1, str "b"⟩, ⟨str "x", [], 1, str "a"⟩, ⟨str "y", [], 4, str "a"⟩] = .ok r ∧
    r.files (str "a") = some (str "test x\n1\nend test\ninclude b\ntest y\n1\nend test\n") ∧ r.files (str "b") = some (str "test z\n1\nend test\n") := by
  refine ⟨_, rfl, by decide +kernel, by decide +kernel⟩
example : Consecutive [⟨str "z", [], 1, str "b"⟩, ⟨str "x", [], 1, str "a"⟩, ⟨str "y", [], 4, str "a"⟩] := by
  intro a t b u c v d e h
  have hl := congrArg List.length e
  simp only [List.length_append, List.length_cons, List.length_nil] at hl
  obtain rfl : a = [] := List.length_eq_zero_iff.mp (by omega)
  obtain rfl : b = [] := List.length_eq_zero_iff.mp (by omega)
  obtain rfl : c = [] := List.length_eq_zero_iff.mp (by omega)
  obtain rfl : d = [] := List.length_eq_zero_iff.mp (by omega)
  simp only [List.nil_append, List.cons_append, List.cons.injEq, and_true] at e
  obtain ⟨rfl, rfl, rfl⟩ := e
  exact absurd h (by decide)

/-! ## C94: the verdicts -/

/-- The report on a test with `-v`: nothing if it had no result, otherwise whether its result is the output. -/
def report (env : TestEnv) (t : CTest) (o : Str) : List Str :=
  if t.result = [] then []
  else if o = t.result then [str "OK " ++ t.location ++ ' ' :: t.cmd ++ ['\n']]
  else [str "FAIL " ++ t.location ++ ' ' :: t.cmd ++ ['\n'] ++ env.diff t.result o]

/-- The reports on the tests that fail. -/
def failures (env : TestEnv) (ts : List CTest) (os : List Str) : List Str :=
  ((ts.zip os).filter (fun p : CTest × Str => decide (p.1.result ≠ [] ∧ p.2 ≠ p.1.result))).map
    (fun p => str "FAIL " ++ p.1.location ++ ' ' :: p.1.cmd ++ ['\n'] ++ env.diff p.1.result p.2)

/-- The line for a file. -/
def verdictLine (ok : Bool) (f : Str) : Str := (if ok then str "OK" else str "FAIL") ++ ' ' :: f ++ ['\n']

/-- Full statement of C94: without `-v` the output is, for each file in turn, the reports on its failing tests and a line with OK if
there are none and FAIL otherwise. `gs` are the files with their tests and the outputs of these. -/
def C94_Statement : Prop := ∀ (env : TestEnv) (d : Dir) (gs : List (Str × List CTest × List Str)), gs ≠ [] →
  (gs.map (·.1)).Nodup → (∀ g ∈ gs, ':' ∉ g.1 ∧ g.2.1 ≠ [] ∧ g.2.1.length = g.2.2.length ∧ ∃ text, d g.1 = some text ∧ InFile g.1 text g.2.1) →
  Outputs env 0 (gs.flatMap (·.2.1)) (gs.flatMap (·.2.2)) →
  ∃ r, testExecute env false d (gs.flatMap (·.2.1)) = .ok r ∧
    r.out = gs.flatMap (fun g => failures env g.2.1 g.2.2 ++ [verdictLine (decide (failures env g.2.1 g.2.2 = [])) g.1])

theorem verdict_out_verbose (env : TestEnv) (old : Str) (s : TestRun) (t : CTest) (o : Str) :
    (testVerdict env true old s t o).out = s.out ++ report env t o := by
  unfold testVerdict report
  by_cases h1 : t.result = []
  · simp [h1]
  · by_cases h2 : o = t.result <;> simp [h1, h2]

theorem flush_out {s s' : TestRun} (h : s.flush = .ok s') : s'.out = s.out ∧ s'.success = s.success ∧ s'.last = s.last := by
  unfold TestRun.flush at h
  split at h
  · cases h; exact ⟨rfl, rfl, rfl⟩
  · obtain ⟨d, _, h⟩ := bind_ok.mp h
    cases h; exact ⟨rfl, rfl, rfl⟩

theorem move_out {s s' : TestRun} {t : CTest} (h : testMove s t = .ok s') : s'.out = s.out ∧ s'.success = s.success ∧ s'.last = fileOf t := by
  unfold testMove at h
  split at h
  · exact flush_out h
  · rename_i hh; cases h; exact ⟨rfl, rfl, by simpa using (Decidable.not_not.mp hh).symm⟩

theorem loop_verbose {env : TestEnv} : ∀ (ts : List CTest) (os : List Str) (k : Nat) (s r : TestRun), Outputs env k ts os →
    testLoopRun env true k s ts = .ok r → r.out = s.out ++ ((ts.zip os).map (fun p => report env p.1 p.2)).flatten := by
  intro ts
  induction ts with
  | nil =>
    intro os k s r _ h
    rw [testLoopRun, testEnd] at h
    obtain ⟨s', h1, h2⟩ := bind_ok.mp h
    cases h2
    simp [(flush_out h1).1]
  | cons t ts ih =>
    intro os k s r ho h
    cases os with
    | nil => exact ho.elim
    | cons o os =>
      rw [loop_step ho] at h
      obtain ⟨s', h1, h2⟩ := bind_ok.mp h
      rw [ih os _ _ _ ho.2 h2, verdict_out_verbose, (move_out h1).1]
      simp

/-- **C94** (with -v) The report has one line for each test with a result, in order: OK if the result is the output, otherwise FAIL and
the difference; nothing else. Whatever the files. -/
theorem C94_verbose (env : TestEnv) (d : Dir) (ts : List CTest) (os : List Str) (r : TestRun) (ho : Outputs env 0 ts os)
    (h : testExecute env true d ts = .ok r) : r.out = ((ts.zip os).map (fun p => report env p.1 p.2)).flatten := by
  unfold testExecute at h
  cases ts with
  | nil => cases h; rfl
  | cons t ts => simpa using loop_verbose (t :: ts) os 0 _ r ho h

theorem failures_cons (env : TestEnv) (t : CTest) (ts : List CTest) (o : Str) (os : List Str) :
    failures env (t :: ts) (o :: os) = (if t.result ≠ [] ∧ o ≠ t.result then [str "FAIL " ++ t.location ++ ' ' :: t.cmd ++ ['\n'] ++ env.diff t.result o] else []) ++
      failures env ts os := by
  unfold failures
  rw [List.zip_cons_cons]
  by_cases h : t.result ≠ [] ∧ o ≠ t.result
  · rw [List.filter_cons_of_pos (by simpa using h), if_pos h]; rfl
  · rw [List.filter_cons_of_neg (by simpa using h), if_neg h]; rfl

theorem loop_one {env : TestEnv} {f : Str} : ∀ (ts : List CTest) (os : List Str) (k : Nat) (s r : TestRun), (∀ t ∈ ts, fileOf t = f) → s.last = f →
    Outputs env k ts os → testLoopRun env false k s ts = .ok r →
    r.out = s.out ++ failures env ts os ++ [verdictLine (s.success && decide (failures env ts os = [])) f] := by
  intro ts
  induction ts with
  | nil =>
    intro os k s r hf hs ho h
    cases os with
    | cons => exact ho.elim
    | nil =>
      rw [testLoopRun, testEnd] at h
      obtain ⟨s', h1, h2⟩ := bind_ok.mp h
      cases h2
      obtain ⟨e1, e2, e3⟩ := flush_out h1
      simp only [Bool.false_eq_true, if_false, e1, e2, e3, hs]
      simp [failures, verdictLine]
  | cons t ts ih =>
    intro os k s r hf hs ho h
    cases os with
    | nil => exact ho.elim
    | cons o os =>
      rw [loop_step ho] at h
      obtain ⟨s', h1, h2⟩ := bind_ok.mp h
      have ht := hf t (by simp)
      have hmv : s' = s := by
        unfold testMove at h1
        rw [if_neg (by rw [ht, hs]; simp)] at h1
        cases h1; rfl
      subst hmv
      rw [if_neg (by rw [ht, hs]; simp)] at h2
      rw [ih os _ _ _ (fun u hu => hf u (by simp [hu])) (by rw [verdict_last, hs]) ho.2 h2, failures_cons]
      unfold testVerdict
      by_cases c1 : t.result = []
      · simp [c1]
      · by_cases c2 : o = t.result
        · simp [c1, c2]
        · simp [c1, c2]

/-- **C94 (partial)** True for tests of one file: the reports on the failing tests, then OK if there are none and FAIL otherwise. Missing:
several files, see below. -/
theorem C94_verdict_partial (env : TestEnv) (d : Dir) (f : Str) (ts : List CTest) (os : List Str) (r : TestRun) (hne : ts ≠ []) (hc : ':' ∉ f)
    (hf : ∀ t ∈ ts, t.file = f) (ho : Outputs env 0 ts os) (h : testExecute env false d ts = .ok r) :
    r.out = failures env ts os ++ [verdictLine (decide (failures env ts os = [])) f] := by
  have hf' : ∀ t ∈ ts, fileOf t = f := by
    intro t ht
    rw [fileOf_eq (by rw [hf t ht]; exact hc), hf t ht]
  unfold testExecute at h
  cases ts with
  | nil => exact absurd rfl hne
  | cons t ts =>
    have := loop_one (f := f) (t :: ts) os 0 ⟨[], [], true, fileOf t, d⟩ r hf' (hf' t (by simp)) ho h
    simpa using this

/-- **C94 is false** of the code for several files: a failure in the first file is reported as "OK" for that file and as "FAIL" for the
second one, whose test passes. -/
theorem C94_verdict_violated : ¬ C94_Statement := by
  intro hst
  obtain ⟨r, h1, h2⟩ := hst exTestEnv (fun _ => some (str "test x\n2\nend test\n"))
    [(str "a", [⟨str "x", str "2\n", 1, str "a"⟩], [str "1\n"]), (str "b", [⟨str "x", str "1\n", 1, str "b"⟩], [str "1\n"])] (by decide) (by decide) (by
      intro g hg
      simp only [List.mem_cons, List.not_mem_nil, or_false] at hg
      rcases hg with rfl | rfl
      · exact ⟨by decide, by decide, rfl, _, rfl, by decide +kernel, by decide +kernel⟩
      · exact ⟨by decide, by decide, rfl, _, rfl, by decide +kernel, by decide +kernel⟩)
    ⟨⟨str "x", [], by decide +kernel, rfl, rfl⟩, ⟨str "x", [], by decide +kernel, rfl, rfl⟩, trivial⟩
  have hr : ((testExecute exTestEnv false (fun _ => some (str "test x\n2\nend test\n")) [⟨str "x", str "2\n", 1, str "a"⟩, ⟨str "x", str "1\n", 1, str "b"⟩]).toOption.map
      (fun r => r.out)) = some [str "FAIL a:1 x\n2\n1\n", str "OK a\n", str "FAIL b\n"] := by decide +kernel
  rw [show [(str "a", [(⟨str "x", str "2\n", 1, str "a"⟩ : CTest)], [str "1\n"]), (str "b", [⟨str "x", str "1\n", 1, str "b"⟩], [str "1\n"])].flatMap (·.2.1) =
    [⟨str "x", str "2\n", 1, str "a"⟩, ⟨str "x", str "1\n", 1, str "b"⟩] from rfl] at h1
  rw [h1] at hr
  simp only [Except.toOption, Option.map_some, Option.some.injEq] at hr
  rw [h2] at hr
  exact absurd hr (by decide +kernel)

end Verif
