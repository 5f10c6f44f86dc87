import Verif.Props.TextOut
import Verif.Props.Aggregate
/-!
# Property C139: the table of an aggregated register
-/
namespace Verif

/-! ## Specification -/

/-- A line of a table: cells of the given widths separated by ` | `. -/
def TableLine (ws : List Nat) (cells : List Str) (line : Str) : Prop := line = joinWith (str " | ") cells ∧ cells.map List.length = ws

/-- The period and the category of a line, as far as the table has them. -/
def leadTexts (period category : Bool) (p c : Str) : List Str := (if period then [p] else []) ++ (if category then [c] else [])

/-- The period formats of the register command: weeks, months and quarters, years, or none. -/
def PeriodFormat (fmtT : Option (Int → Str)) : Prop := fmtT = none ∨ fmtT = some formatDate ∨ fmtT = some formatMonth ∨ fmtT = some formatYear

/-- Every column is in one commodity (the register command computes such columns, C41–C46) and the years are those that can be
written in a ledger. -/
structure TableOk (cols : Columns) : Prop where
  com : ∀ e ∈ cols, ∃ c : Com, c.decimals ≤ 50 ∧ ∀ x ∈ e.2, x.vals ≠ [] ∧ ∀ kv ∈ x.vals, kv.2.com = c
  year : ∀ e ∈ cols, ∀ x ∈ e.2, 0 ≤ goYear x.time ∧ goYear x.time ≤ 9999

/-! ## Lemmas -/


theorem period_length {fmtT : Option (Int → Str)} (h : PeriodFormat fmtT) {f : Int → Str} (hf : fmtT = some f) :
    ∃ k, 0 < k ∧ ∀ n, 0 ≤ goYear n → goYear n ≤ 9999 → (f n).length = k := by
  rcases h with h | h | h | h
  · rw [h] at hf; simp at hf
  · rw [h] at hf; injection hf with hf; subst hf
    refine ⟨10, by omega, fun n h0 h1 => ?_⟩
    obtain ⟨y, m, d, e, ⟨_, hy⟩, ⟨_, hm⟩, ⟨_, hd⟩, _⟩ := formatDate_digits n h0 h1
    rw [e]; simp [hy, hm, hd]
  · rw [h] at hf; injection hf with hf; subst hf
    refine ⟨7, by omega, fun n h0 h1 => ?_⟩
    have r := goParts_range n
    obtain ⟨y1, y2, _⟩ := padInt_spec (x := goYear n) (w := 4) h0 (by decide) (by omega)
    obtain ⟨m1, m2, _⟩ := padInt_spec (x := goMonth n) (w := 2) (by omega) (by decide) (by omega)
    unfold formatMonth
    simp [y2, m2]
  · rw [h] at hf; injection hf with hf; subst hf
    refine ⟨4, by omega, fun n h0 h1 => ?_⟩
    exact (padInt_spec (x := goYear n) (w := 4) h0 (by decide) (by omega)).2.1

theorem widest_spec (dec : Nat) (hd : dec ≤ 50) : ∀ (l : List Amount) (w : Int), widest dec l = .ok w → (∀ a ∈ l, a.com.decimals = dec) →
    0 ≤ w ∧ ∀ a ∈ l, ∃ s, a.string = .ok s ∧ (s.length : Int) ≤ w := by
  intro l
  induction l with
  | nil => intro w h _; simp only [widest] at h; injection h with h; subst h; simp
  | cons a l ih =>
    intro w h hc
    simp only [widest] at h
    obtain ⟨x, hx, h⟩ := bind_ok.mp h
    obtain ⟨r, hr, h⟩ := bind_ok.mp h
    injection h with h
    obtain ⟨g0, g1⟩ := ih r hr (fun b hb => hc b (by simp [hb]))
    have hac := hc a (by simp)
    obtain ⟨s, hs, hw⟩ := C08_width a (by omega) (width_small hx)
    rw [hac, hx] at hw
    injection hw with hw
    refine ⟨by omega, ?_⟩
    intro b hb
    rcases List.mem_cons.mp hb with rfl | hb
    · exact ⟨s, hs, by omega⟩
    · obtain ⟨t, ht, hl⟩ := g1 b hb
      exact ⟨t, ht, by omega⟩

theorem colWidth_spec {ts : TS} {c : Com} (hd : c.decimals ≤ 50) (hc : ∀ x ∈ ts, x.vals ≠ [] ∧ ∀ kv ∈ x.vals, kv.2.com = c) {w : Int}
    (h : colWidth ts = .ok w) : 0 ≤ w ∧ ∀ x ∈ ts, ∀ kv ∈ x.vals, ∃ s, kv.2.string = .ok s ∧ (s.length : Int) ≤ w := by
  unfold colWidth at h
  cases hl : ts.getLast? with
  | none =>
    rw [hl] at h; injection h with h
    have : ts = [] := List.getLast?_eq_none_iff.mp hl
    subst this
    exact ⟨by omega, by simp⟩
  | some cur =>
    rw [hl] at h
    dsimp only at h
    obtain ⟨hne, hcc⟩ := hc cur (List.mem_of_getLast? hl)
    obtain ⟨kv, rest, hv⟩ := List.exists_cons_of_ne_nil hne
    have : tsCom (some cur) ts = some c := by
      have : kv.2.com = c := hcc kv (by rw [hv]; simp)
      simp [tsCom, TT.com, hv, this]
    rw [this] at h
    dsimp only at h
    obtain ⟨g0, g1⟩ := widest_spec c.decimals hd _ w h (by
      intro a ha
      unfold colAmounts at ha
      obtain ⟨x, hx, ha⟩ := List.mem_flatMap.mp ha
      obtain ⟨kv, hkv, rfl⟩ := List.mem_map.mp ha
      rw [(hc x hx).2 kv hkv])
    refine ⟨g0, fun x hx kv hkv => g1 kv.2 ?_⟩
    unfold colAmounts
    exact List.mem_flatMap.mpr ⟨x, hx, List.mem_map.mpr ⟨kv, hkv, rfl⟩⟩

theorem labelledWidths_spec (label : Option Str → Str) : ∀ (cols : Columns) (ws : List Int), labelledWidths label cols = .ok ws →
    List.Forall₂ (fun e w => ∃ x, colWidth e.2 = .ok x ∧ x ≤ w ∧ (blen (label e.1) : Int) ≤ w) cols ws := by
  intro cols
  induction cols with
  | nil => intro ws h; simp only [labelledWidths] at h; injection h with h; subst h; exact .nil
  | cons e cols ih =>
    intro ws h
    simp only [labelledWidths] at h
    obtain ⟨x, hx, h⟩ := bind_ok.mp h
    obtain ⟨r, hr, h⟩ := bind_ok.mp h
    injection h with h
    subst h
    refine .cons ⟨x, hx, ?_, ?_⟩ (ih r hr)
    · split <;> omega
    · split <;> omega

/-- A row of the table comes from a period of the first column and one of its categories; its cells are those of the columns. -/
theorem outputRows_inv {csv : Bool} {cols : Columns} {first : Option Str × TS} {rest : Columns} (hcols : cols = first :: rest)
    {rows : List (Int × Str × List (Option Amount))} (h : outputRows csv cols = .ok rows) :
    (∀ row ∈ rows, ∃ x ∈ first.2, ∃ s ∈ periodCategories x, row.1 = x.time ∧ row.2.1 = s ∧
      List.Forall₂ (fun (e : Option Str × TS) a => ∃ t ∈ e.2, a = cell t s) cols row.2.2) ∧
    (∀ x ∈ first.2, ∀ s ∈ periodCategories x, ∃ row ∈ rows, row.1 = x.time ∧ row.2.1 = s) := by
  subst hcols
  unfold outputRows at h
  dsimp only at h
  rw [mapM_ok] at h
  constructor
  · intro row hrow
    obtain ⟨e, he, hr⟩ := forall2_mem_right h row hrow
    obtain ⟨y, hy, he⟩ := List.mem_flatMap.mp he
    obtain ⟨s, hs, rfl⟩ := List.mem_map.mp he
    obtain ⟨cells, hc, hr⟩ := bind_ok.mp hr
    have hy1 : y.1 ∈ first.2 := by
      obtain ⟨i, hi⟩ := y
      exact (List.mem_zipIdx hy).2.2 ▸ List.getElem_mem _
    split at hr
    · simp at hr
    · injection hr with hr
      subst hr
      refine ⟨y.1, hy1, s, hs, rfl, rfl, ?_⟩
      unfold outputRow at hc
      rw [mapM_ok] at hc
      refine hc.imp ?_
      intro e a ha
      dsimp only at ha
      split at ha
      · simp at ha
      · rename_i t ht
        split at ha
        · injection ha with ha
          exact ⟨t, List.mem_of_getElem? ht, ha.symm⟩
        · simp at ha
  · intro x hx s hs
    obtain ⟨i, hi, rfl⟩ := List.getElem_of_mem hx
    obtain ⟨row, hrow, hr⟩ := forall2_mem_left h (((first.2)[i], i), s) (by
      refine List.mem_flatMap.mpr ⟨((first.2)[i], i), ?_, List.mem_map.mpr ⟨s, hs, rfl⟩⟩
      rw [List.mem_zipIdx_iff_getElem?]
      simp [hi])
    obtain ⟨cells, hc, hr⟩ := bind_ok.mp hr
    split at hr
    · simp at hr
    · injection hr with hr
      exact ⟨row, hrow, by rw [← hr], by rw [← hr]⟩

theorem getKey_val {l : List (Option Str × Amount)} {k : Option Str} {a : Amount} (h : getKey l k = some a) : ∃ kv ∈ l, kv.2 = a := by
  unfold getKey at h
  obtain ⟨e, he, hv⟩ := Option.map_eq_some_iff.mp h
  exact ⟨e, List.mem_of_find?_eq_some he, hv⟩

theorem cell_mem {x : TT} {s : Str} {a : Amount} (h : cell x s = some a) : ∃ kv ∈ x.vals, kv.2 = a := by
  unfold cell at h
  split at h
  · exact getKey_val h
  · exact getKey_val h

theorem foldl_max_ge : ∀ (l : List Nat) (m : Nat), m ≤ l.foldl max m ∧ ∀ x ∈ l, x ≤ l.foldl max m := by
  intro l
  induction l with
  | nil => intro m; simp
  | cons a l ih =>
    intro m
    rw [List.foldl_cons]
    obtain ⟨h1, h2⟩ := ih (max m a)
    refine ⟨by omega, ?_⟩
    intro x hx
    rcases List.mem_cons.mp hx with rfl | hx
    · omega
    · exact h2 x hx

theorem foldl_max_zero : ∀ (l : List Nat), (∀ x ∈ l, x = 0) → l.foldl max 0 = 0 := by
  intro l
  induction l with
  | nil => intro _; rfl
  | cons a l ih =>
    intro h
    rw [List.foldl_cons, h a (by simp)]
    exact ih (fun x hx => h x (by simp [hx]))

theorem periodCategories_mem {x : TT} {s : Str} (h : s ∈ periodCategories x) : s = [] ∨ some s ∈ x.vals.map (·.1) := by
  unfold periodCategories at h
  split at h
  · simp at h; exact .inl h
  · right
    unfold sortStrings at h
    rw [(stableSort_perm _ _).mem_iff] at h
    obtain ⟨kv, hkv, hk⟩ := List.mem_filterMap.mp h
    exact List.mem_map.mpr ⟨kv, hkv, hk⟩

theorem mem_periodCategories {x : TT} {s : Str} (h : some s ∈ x.vals.map (·.1)) : s ∈ periodCategories x := by
  obtain ⟨kv, hkv, hk⟩ := List.mem_map.mp h
  have hm : s ∈ x.vals.filterMap (·.1) := List.mem_filterMap.mpr ⟨kv, hkv, hk⟩
  unfold periodCategories
  split
  · rename_i h0; rw [h0] at hm; simp at hm
  · unfold sortStrings
    rw [(stableSort_perm _ _).mem_iff]
    exact hm

theorem categoryWidth_ge {ts : TS} {x : TT} (hx : x ∈ ts) {s : Str} (h : s ∈ periodCategories x) : s.length ≤ categoryWidth ts := by
  rcases periodCategories_mem h with rfl | h
  · simp
  · obtain ⟨kv, hkv, hk⟩ := List.mem_map.mp h
    refine Nat.le_trans (length_le_blen s) ?_
    unfold categoryWidth
    refine (foldl_max_ge _ 0).2 _ ?_
    exact List.mem_flatMap.mpr ⟨x, hx, List.mem_map.mpr ⟨s, List.mem_filterMap.mpr ⟨kv, hkv, hk⟩, rfl⟩⟩

theorem blen_pos {s : Str} (h : s ≠ []) : 0 < blen s := by
  have := length_le_blen s
  have := List.length_pos_iff.mpr h
  omega

theorem categoryWidth_pos {ts : TS} : 0 < categoryWidth ts ↔ ∃ x ∈ ts, ∃ s ∈ periodCategories x, s ≠ [] := by
  constructor
  · intro h
    by_contra hc
    push Not at hc
    have : categoryWidth ts = 0 := by
      unfold categoryWidth
      apply foldl_max_zero
      intro n hn
      obtain ⟨x, hx, hn⟩ := List.mem_flatMap.mp hn
      obtain ⟨s, hs, rfl⟩ := List.mem_map.mp hn
      obtain ⟨kv, hkv, hk⟩ := List.mem_filterMap.mp hs
      rw [hc x hx s (mem_periodCategories (List.mem_map.mpr ⟨kv, hkv, hk⟩))]; rfl
    omega
  · rintro ⟨x, hx, s, hs, hne⟩
    have := categoryWidth_ge hx hs
    have := List.length_pos_iff.mpr hne
    omega

theorem cellTexts_spec : ∀ (ws : List Int) (l : List (Option Amount)) (cs : List Str), cellTexts ws l = .ok cs →
    List.Forall₂ (fun w o => ∃ a s, o = some a ∧ a.string = .ok s ∧ (s.length : Int) ≤ w) ws l →
    cs.map List.length = ws.map Int.toNat ∧ List.Forall₂ (fun o c => ∃ a s, o = some a ∧ a.string = .ok s ∧ Padded s c) l cs := by
  intro ws
  induction ws with
  | nil =>
    intro l cs h hf
    cases hf
    simp only [cellTexts] at h
    injection h with h; subst h
    exact ⟨rfl, .nil⟩
  | cons w ws ih =>
    intro l cs h hf
    cases hf with
    | @cons _ o _ l ho hf =>
      obtain ⟨a, s, rfl, hs, hl⟩ := ho
      simp only [cellTexts, cellText] at h
      obtain ⟨c, hc, h⟩ := bind_ok.mp h
      obtain ⟨r, hr, h⟩ := bind_ok.mp h
      injection h with h; subst h
      obtain ⟨g1, g2⟩ := ih l r hr hf
      rw [amountStar_ok hs] at hc
      injection hc with hc; subst hc
      exact ⟨by simp [g1, padStar_length hl], .cons ⟨a, s, rfl, hs, padded_padStar _ _⟩ g2⟩

theorem forall2_padded_lead {pw cw : Nat} (p c : Str) (hp : p.length ≤ pw) (hc : c.length ≤ cw) :
    List.Forall₂ Padded (leadTexts (decide (0 < pw)) (decide (0 < cw)) p c) (leadCells pw cw p c) ∧
    (leadCells pw cw p c).map List.length = (if pw > 0 then [pw] else []) ++ (if cw > 0 then [cw] else []) := by
  unfold leadTexts leadCells
  have l1 : (padStar pw p).length = pw := by rw [padStar_length (by omega)]; omega
  have l2 : (padStar cw c).length = cw := by rw [padStar_length (by omega)]; omega
  have p1 := padded_padStar pw p
  have p2 := padded_padStar cw c
  by_cases h1 : pw > 0 <;> by_cases h2 : cw > 0 <;> simp [h1, h2, l1, l2, p1, p2]

/-! ## C139 -/

/-- **C139** The table printed for an aggregated register has a heading with the labels of the columns and then one line per period and
category, with the period (if the register has periods), the category (if there is one) and the amount of every column; every column is
equally wide on all lines, including the heading. -/
theorem C139_table_aligned_partial (fmtT : Option (Int → Str)) (label : Option Str → Str) (cols : Columns) (lines : List Str)
    (rows : List (Int × Str × List (Option Amount))) (hfmt : PeriodFormat fmtT) (hok : TableOk cols)
    (h : tableText fmtT label cols = .ok lines) (hr : outputRows false cols = .ok rows)
    (hcells : ∀ row ∈ rows, ∀ x ∈ row.2.2, x.isSome = true) :
    ∃ (cat : Bool) (ws : List Nat) (head : Str) (ls : List Str), lines = head :: ls ∧ (cat = true ↔ ∃ row ∈ rows, row.2.1 ≠ []) ∧
      (∃ cells, TableLine ws cells head ∧ List.Forall₂ Padded (leadTexts fmtT.isSome cat [] [] ++ cols.map (fun e => label e.1)) cells) ∧
      List.Forall₂ (fun (row : Int × Str × List (Option Amount)) line => ∃ cells amounts, TableLine ws cells line ∧
        List.Forall₂ (fun o s => ∃ a : Amount, o = some a ∧ a.string = .ok s) row.2.2 amounts ∧
        List.Forall₂ Padded (leadTexts fmtT.isSome cat (periodText fmtT row.1) row.2.1 ++ amounts) cells) rows ls := by
  rcases hcols : cols with _ | ⟨first, rest⟩
  · subst hcols; simp [tableText] at h
  rw [hcols] at h
  unfold tableText at h
  dsimp only at h
  obtain ⟨pw, hpw, h⟩ := bind_ok.mp h
  obtain ⟨ws, hws, h⟩ := bind_ok.mp h
  split at h
  · simp at h
  obtain ⟨rows', hr', h⟩ := bind_ok.mp h
  rw [← hcols, hr] at hr'
  injection hr' with hr'; subst hr'
  obtain ⟨ls, hls, h⟩ := bind_ok.mp h
  injection h with h
  obtain ⟨hin, hout⟩ := outputRows_inv hcols hr
  have hfirst : first ∈ cols := by rw [hcols]; simp
  have hfw := labelledWidths_spec label _ ws hws
  rw [← hcols] at hfw
  -- widths of the lead cells
  have hpos : decide (0 < pw) = fmtT.isSome ∧ ∀ x ∈ first.2, (periodText fmtT x.time).length ≤ pw := by
    unfold periodWidth at hpw
    cases hf : fmtT with
    | none => rw [hf] at hpw; injection hpw with hpw; subst hpw; simp [periodText]
    | some f =>
      rw [hf] at hpw
      dsimp only at hpw
      obtain ⟨k, hk0, hk⟩ := period_length hfmt hf
      split at hpw
      · simp at hpw
      · rename_i t ts hts
        injection hpw with hpw
        have hy := hok.year first hfirst
        have e0 := hk t.time (hy t (by rw [hts]; simp)).1 (hy t (by rw [hts]; simp)).2
        have := length_le_blen (f t.time)
        refine ⟨by simp; omega, ?_⟩
        intro x hx
        have := hk x.time (hy x hx).1 (hy x hx).2
        simp only [periodText]; omega
  refine ⟨decide (0 < categoryWidth first.2), (if pw > 0 then [pw] else []) ++ (if categoryWidth first.2 > 0 then [categoryWidth first.2] else []) ++
    ws.map Int.toNat, _, ls, h.symm, ?_, ?_, ?_⟩
  · rw [decide_eq_true_eq, categoryWidth_pos]
    constructor
    · rintro ⟨x, hx, s, hs, hne⟩
      obtain ⟨row, hrow, _, e⟩ := hout x hx s hs
      exact ⟨row, hrow, by rw [e]; exact hne⟩
    · rintro ⟨row, hrow, hne⟩
      obtain ⟨x, hx, s, hs, _, e, _⟩ := hin row hrow
      exact ⟨x, hx, s, hs, by rw [← e]; exact hne⟩
  · obtain ⟨l1, l2⟩ := forall2_padded_lead (pw := pw) (cw := categoryWidth first.2) [] [] (by simp) (by simp)
    rw [hpos.1] at l1
    have hlab : ∀ (cs : Columns) (ws : List Int), List.Forall₂ (fun e w => ∃ x, colWidth e.2 = .ok x ∧ x ≤ w ∧ (blen (label e.1) : Int) ≤ w) cs ws →
        ((ws.zip cs).map (fun e => padStar e.1 (label e.2.1))).map List.length = ws.map Int.toNat ∧
        List.Forall₂ Padded (cs.map (fun e => label e.1)) ((ws.zip cs).map (fun e => padStar e.1 (label e.2.1))) := by
      intro cs ws hf
      induction hf with
      | nil => exact ⟨rfl, .nil⟩
      | @cons e w cs ws he _ ih =>
        obtain ⟨x, _, _, hle⟩ := he
        have := length_le_blen (label e.1)
        refine ⟨?_, .cons (padded_padStar _ _) ih.2⟩
        simp only [List.zip_cons_cons, List.map_cons, ih.1]
        rw [padStar_length (by omega)]
    obtain ⟨m1, m2⟩ := hlab cols ws hfw
    rw [hcols] at m1 m2
    exact ⟨_, ⟨rfl, by rw [List.map_append, l2, m1]⟩, List.rel_append l1 m2⟩
  · refine forall2_imp_mem (linesOf_ok _ rows ls hls) ?_
    intro row hrow line hline
    obtain ⟨cs, hcs, hline⟩ := bind_ok.mp hline
    injection hline with hline
    obtain ⟨x, hx, s, hs, e1, e2, hf⟩ := hin row hrow
    have hcol : List.Forall₂ (fun w o => ∃ (a : Amount) (t : Str), o = some a ∧ a.string = .ok t ∧ (t.length : Int) ≤ w) ws row.2.2 := by
      have hsome := hcells row hrow
      have aux : ∀ (cs : Columns) (ws : List Int) (l : List (Option Amount)), (∀ e ∈ cs, e ∈ cols) → (∀ o ∈ l, o.isSome = true) →
          List.Forall₂ (fun (e : Option Str × TS) w => ∃ x, colWidth e.2 = .ok x ∧ x ≤ w ∧ (blen (label e.1) : Int) ≤ w) cs ws →
          List.Forall₂ (fun (e : Option Str × TS) a => ∃ t ∈ e.2, a = cell t s) cs l →
          List.Forall₂ (fun w o => ∃ (a : Amount) (t : Str), o = some a ∧ a.string = .ok t ∧ (t.length : Int) ≤ w) ws l := by
        intro cs ws l hsub hsome hf1
        induction hf1 generalizing l with
        | nil => intro hf2; cases hf2; exact .nil
        | @cons e w cs ws he _ ih =>
          intro hf2
          cases hf2 with
          | @cons _ o _ l ho hf2 =>
            refine .cons ?_ (ih l (fun e he => hsub e (by simp [he])) (fun o ho => hsome o (by simp [ho])) hf2)
            obtain ⟨t, ht, rfl⟩ := ho
            obtain ⟨y, hy, hle, _⟩ := he
            obtain ⟨c, hc1, hc2⟩ := hok.com e (hsub e (by simp))
            obtain ⟨a, ha⟩ := Option.isSome_iff_exists.mp (hsome (cell t s) (by simp))
            obtain ⟨kv, hkv, rfl⟩ := cell_mem ha
            obtain ⟨_, g⟩ := colWidth_spec hc1 hc2 hy
            obtain ⟨u, hu, hul⟩ := g t ht kv hkv
            exact ⟨_, u, ha, hu, by omega⟩
      exact aux cols ws row.2.2 (fun _ h => h) hsome hfw hf
    obtain ⟨g1, g2⟩ := cellTexts_spec ws row.2.2 cs hcs hcol
    obtain ⟨l1, l2⟩ := forall2_padded_lead (pw := pw) (cw := categoryWidth first.2) (periodText fmtT row.1) row.2.1
      (by rw [e1]; exact hpos.2 x hx) (by rw [e2]; exact categoryWidth_ge hx hs)
    rw [hpos.1] at l1
    have hsplit : ∃ amounts, List.Forall₂ (fun o s => ∃ a : Amount, o = some a ∧ a.string = .ok s) row.2.2 amounts ∧ List.Forall₂ Padded amounts cs := by
      generalize row.2.2 = l at g2
      clear g1 hcs hcol hline
      induction g2 with
      | nil => exact ⟨[], .nil, .nil⟩
      | @cons o c _ _ ho _ ih =>
        obtain ⟨a, s, h1, h2, h3⟩ := ho
        obtain ⟨am, i1, i2⟩ := ih
        exact ⟨s :: am, .cons ⟨a, h1, h2⟩ i1, .cons h3 i2⟩
    obtain ⟨amounts, a1, a2⟩ := hsplit
    refine ⟨_, amounts, ⟨hline.symm, ?_⟩, a1, List.rel_append l1 a2⟩
    rw [List.map_append, g1]
    congr 1


theorem widest_total (dec : Nat) : ∀ (l : List Amount), (∀ a ∈ l, a.int.natAbs < 10 ^ 50) → ∃ w, widest dec l = .ok w := by
  intro l
  induction l with
  | nil => intro _; exact ⟨0, rfl⟩
  | cons a l ih =>
    intro h
    obtain ⟨x, hx⟩ := width_ok a (h a (by simp)) dec
    obtain ⟨r, hr⟩ := ih (fun b hb => h b (by simp [hb]))
    exact ⟨max x r, by simp only [widest, hx, hr, Except.bind]⟩

theorem labelledWidths_total (label : Option Str → Str) (cols : Columns) (hc : ∀ e ∈ cols, ∃ w, colWidth e.2 = .ok w) :
    ∃ ws, labelledWidths label cols = .ok ws := by
  induction cols with
  | nil => exact ⟨[], rfl⟩
  | cons e cols ih =>
    obtain ⟨w, hw⟩ := hc e (by simp)
    obtain ⟨ws, hws⟩ := ih (fun e he => hc e (by simp [he]))
    exact ⟨_, by simp only [labelledWidths, hw, hws, Except.bind]; rfl⟩

/-- **C139** The table is printed whenever the rows can be computed, no amount has more than 50 digits and the table has periods or a
category that is not empty. -/
theorem C139_table_printed (fmtT : Option (Int → Str)) (label : Option Str → Str) (cols : Columns)
    (rows : List (Int × Str × List (Option Amount))) (hfmt : PeriodFormat fmtT) (hok : TableOk cols) (hr : outputRows false cols = .ok rows)
    (hne : ∀ e ∈ cols, e.2 ≠ []) (hsmall : ∀ e ∈ cols, ∀ x ∈ e.2, ∀ kv ∈ x.vals, kv.2.int.natAbs < 10 ^ 50)
    (hlead : fmtT.isSome = true ∨ ∃ row ∈ rows, row.2.1 ≠ []) : ∃ lines, tableText fmtT label cols = .ok lines := by
  rcases hcols : cols with _ | ⟨first, rest⟩
  · subst hcols; simp [outputRows] at hr
  have hfirst : first ∈ cols := by rw [hcols]; simp
  have hcw : ∀ e ∈ cols, ∃ w, colWidth e.2 = .ok w := by
    intro e he
    unfold colWidth
    cases hl : e.2.getLast? with
    | none => exact ⟨0, rfl⟩
    | some cur =>
      obtain ⟨c, hc1, hc2⟩ := hok.com e he
      obtain ⟨hcne, hcc⟩ := hc2 cur (List.mem_of_getLast? hl)
      obtain ⟨kv, rest, hv⟩ := List.exists_cons_of_ne_nil hcne
      have : tsCom (some cur) e.2 = some c := by
        have : kv.2.com = c := hcc kv (by rw [hv]; simp)
        simp [tsCom, TT.com, hv, this]
      simp only [this]
      refine widest_total _ _ ?_
      intro a ha
      unfold colAmounts at ha
      obtain ⟨x, hx, ha⟩ := List.mem_flatMap.mp ha
      obtain ⟨kv, hkv, rfl⟩ := List.mem_map.mp ha
      exact hsmall e he x hx kv hkv
  obtain ⟨ws, hws⟩ := labelledWidths_total label cols hcw
  have hpw : ∃ pw, periodWidth fmtT first.2 = .ok pw ∧ (fmtT.isSome = true → 0 < pw) := by
    unfold periodWidth
    cases hf : fmtT with
    | none => exact ⟨0, rfl, by simp⟩
    | some f =>
      obtain ⟨t, ts, hts⟩ := List.exists_cons_of_ne_nil (hne first hfirst)
      rw [hts]
      obtain ⟨k, hk0, hk⟩ := period_length hfmt hf
      have hy := hok.year first hfirst t (by rw [hts]; simp)
      have := hk t.time hy.1 hy.2
      have := length_le_blen (f t.time)
      exact ⟨_, rfl, fun _ => by omega⟩
  obtain ⟨pw, hpw, hpos⟩ := hpw
  obtain ⟨hin, hout⟩ := outputRows_inv hcols hr
  have hnz : ¬ (pw = 0 ∧ categoryWidth first.2 = 0) := by
    rintro ⟨h1, h2⟩
    rcases hlead with h | ⟨row, hrow, hs⟩
    · have := hpos h; omega
    · obtain ⟨x, hx, s, hs', _, e, _⟩ := hin row hrow
      have := (categoryWidth_pos (ts := first.2)).mpr ⟨x, hx, s, hs', by rw [← e]; exact hs⟩
      omega
  rw [hcols] at hr hws
  have hbig : ∀ row ∈ rows, ∀ o ∈ row.2.2, ∀ a, o = some a → ∃ s, Amount.string a = .ok s := by
    intro row hrow o ho a hoa
    obtain ⟨x, hx, s, hs', _, e, hf⟩ := hin row hrow
    obtain ⟨e, he, t, ht, rfl⟩ := forall2_mem_right hf o ho
    obtain ⟨kv, hkv, rfl⟩ := cell_mem hoa
    obtain ⟨c, hc1, hc2⟩ := hok.com e he
    obtain ⟨s, hs, _⟩ := C08_width kv.2 (by rw [(hc2 t ht).2 kv hkv]; exact hc1) (hsmall e he t ht kv hkv)
    exact ⟨s, hs⟩
  have hcells : ∀ (l : List (Option Amount)) (ws : List Int), (∀ o ∈ l, ∀ a, o = some a → ∃ s, Amount.string a = .ok s) →
      ∃ cs, cellTexts ws l = .ok cs := by
    intro l
    induction l with
    | nil => intro ws _; cases ws <;> exact ⟨[], rfl⟩
    | cons o l ih =>
      intro ws h
      cases ws with
      | nil => exact ⟨[], rfl⟩
      | cons w ws =>
        obtain ⟨cs, hcs⟩ := ih ws (fun o ho => h o (by simp [ho]))
        have : ∃ c, cellText w o = .ok c := by
          cases ho : o with
          | none => exact ⟨_, rfl⟩
          | some a =>
            obtain ⟨s, hs⟩ := h o (by simp) a ho
            exact ⟨_, amountStar_ok hs⟩
        obtain ⟨c, hc⟩ := this
        exact ⟨c :: cs, by simp only [cellTexts, hc, hcs, Except.bind]⟩
  obtain ⟨ls, hls⟩ := linesOf_total (fun r : Int × Str × List (Option Amount) => (cellTexts ws r.2.2).bind fun cs =>
        .ok (joinWith (str " | ") (leadCells pw (categoryWidth first.2) (periodText fmtT r.1) r.2.1 ++ cs))) rows (by
    intro row hrow
    obtain ⟨cs, hcs⟩ := hcells row.2.2 ws (hbig row hrow)
    exact ⟨_, by rw [hcs]; rfl⟩)
  have hb : ∀ {α β : Type} (a : α) (g : α → Except Fault β), (Except.ok a : Except Fault α).bind g = g a := fun _ _ => rfl
  unfold tableText
  dsimp only
  rw [hpw, hb, hws, hb, if_neg hnz, hr, hb, hls, hb]
  exact ⟨_, rfl⟩

/-- **C139** for the whole command: with `-g` large enough, something selected and no empty category, the aggregated register prints a table with
the labels of the columns and one line for every period and category in which a selected posting falls; in the column of an account
stands the exact sum of that account's postings (including those below it with `-r`, and up to the period with `-c`), and every column is
equally wide on all lines. -/
theorem C139_register_table {dflt : Str} {decls accts : List Acct} {L : Links} {env : Env} {compile : Compile} {v : View} {f : Filters}
    {red : Reducers} {r : Str} {c : Com} {fuel : Nat} (x : AggCtx dflt decls accts L env compile v f red r c fuel) (recurse cumulative : Bool)
    (l sorted : List (Str × TS)) (hl : aggTotals env compile v L fuel f red recurse r = .ok l) (hsort : BySize env.conv l sorted)
    (n : Nat) (hn : l.length ≤ n) (hcum : cumulative = true → red.category = none)
    (hsome : columnPostings compile v f (accts.map (·.fullName)) true r ≠ [])
    (hempty : ∀ p ∈ columnPostings compile v f (accts.map (·.fullName)) true r, keyOf red p ≠ some [])
    (fmtT : Option (Int → Str)) (hfmt : PeriodFormat fmtT) (hft : fmtT.isSome = red.time.isSome) (label : Option Str → Str) (hd : c.decimals ≤ 50) :
    ∃ cols rows, aggColumns env red n cumulative r sorted = .ok cols ∧ outputRows false cols = .ok rows ∧
      (∀ row ∈ rows, row.2.2 = cols.map (fun e => some
        ⟨cellSum red v cumulative (columnPostings compile v f (accts.map (·.fullName)) recurse (e.1.getD [])) row.1
          (keyFor red.category.isSome row.2.1), c⟩)) ∧
      ((∀ e ∈ cols, ∀ x ∈ e.2, 0 ≤ goYear x.time ∧ goYear x.time ≤ 9999) → (∀ e ∈ cols, ∀ x ∈ e.2, ∀ kv ∈ x.vals, kv.2.int.natAbs < 10 ^ 50) →
        ∃ (lines : List Str) (ws : List Nat) (head : Str) (ls : List Str), tableText fmtT label cols = .ok lines ∧ lines = head :: ls ∧
          (∃ cells, TableLine ws cells head ∧
            List.Forall₂ Padded (leadTexts fmtT.isSome red.category.isSome [] [] ++ cols.map (fun e => label e.1)) cells) ∧
          List.Forall₂ (fun (row : Int × Str × List (Option Amount)) line => ∃ cells amounts, TableLine ws cells line ∧
            List.Forall₂ (fun o s => ∃ a : Amount, o = some a ∧ a.string = .ok s) row.2.2 amounts ∧
            List.Forall₂ Padded (leadTexts fmtT.isSome red.category.isSome (periodText fmtT row.1) row.2.1 ++ amounts) cells) rows ls) := by
  obtain ⟨cols, rows, h1, h2, h3, h4, h5, h6, h7, h8⟩ := C72_aggregated_values x recurse cumulative false l sorted hl hsort n hn hcum hsome hempty
  refine ⟨cols, rows, h1, h2, h8, ?_⟩
  intro hyear hsmall
  have key := aggColumns_spec x recurse cumulative l sorted hl hsort.1 n cols h1
  have hok : TableOk cols := by
    refine ⟨?_, hyear⟩
    intro e he
    obtain ⟨k1, _⟩ := key e he
    refine ⟨c, hd, fun y hy => ⟨?_, (k1.ok y hy).vals.com⟩⟩
    intro hnil
    cases hcat : red.category.isSome with
    | true => exact ((k1.ok y hy).cats hcat).1 hnil
    | false => have := (k1.ok y hy).single hcat; rw [hnil] at this; simp at this
  -- some row exists
  obtain ⟨p, hp⟩ := List.exists_mem_of_ne_nil _ hsome
  have hocc : occursAt red v (columnPostings compile v f (accts.map (·.fullName)) true r) (periodOf red v p) (keyOf red p) := ⟨p, hp, rfl, rfl⟩
  have hkey : ∀ q, ∃ s, keyOf red q = keyFor red.category.isSome s ∧ (red.category.isSome = false → s = []) := by
    intro q
    unfold keyOf keyFor
    cases red.category with
    | none => exact ⟨[], rfl, fun _ => rfl⟩
    | some g => exact ⟨g q, rfl, by simp⟩
  obtain ⟨s0, hs0, hs0'⟩ := hkey p
  have hrow0 : (periodOf red v p, s0) ∈ rows.map (fun row => (row.1, row.2.1)) := (h7 _ _).mpr ⟨by rw [← hs0]; exact hocc, hs0'⟩
  have hcat : (red.category.isSome = true ↔ ∃ row ∈ rows, row.2.1 ≠ []) := by
    constructor
    · intro hc
      obtain ⟨row, hrow, e⟩ := List.mem_map.mp hrow0
      refine ⟨row, hrow, ?_⟩
      injection e with _ e
      rw [e]
      rintro rfl
      rw [hc] at hs0
      exact hempty p hp hs0
    · rintro ⟨row, hrow, hne⟩
      by_contra hc
      exact hne (((h7 row.1 row.2.1).mp (List.mem_map.mpr ⟨row, hrow, rfl⟩)).2 (by simpa using hc))
  have hne : ∀ e ∈ cols, e.2 ≠ [] := by
    intro e he hnil
    rcases hcols : cols with _ | ⟨first, rest⟩
    · rw [hcols] at he; simp at he
    obtain ⟨row, hrow, _⟩ := List.mem_map.mp hrow0
    obtain ⟨_, _, _, _, _, _, hf⟩ := (outputRows_inv hcols h2).1 row hrow
    obtain ⟨_, _, t, ht, _⟩ := forall2_mem_left hf e he
    rw [hnil] at ht; simp at ht
  obtain ⟨lines, hlines⟩ := C139_table_printed fmtT label cols rows hfmt hok h2 hne hsmall (by
    rcases x.reduces with h | h
    · left; rw [hft]; exact h
    · exact .inr (hcat.mp h))
  obtain ⟨cat, ws, head, ls, g1, g2, g3, g4⟩ := C139_table_aligned_partial fmtT label cols lines rows hfmt hok hlines h2 (by
    intro row hrow o ho
    rw [h8 row hrow] at ho
    obtain ⟨e, _, rfl⟩ := List.mem_map.mp ho
    rfl)
  have hcc : cat = red.category.isSome := by
    rw [Bool.eq_iff_iff, g2, hcat]
  rw [hcc] at g3 g4
  exact ⟨lines, ws, head, ls, hlines, g1, g3, g4⟩

/-! The empty category: `register -bp` with a transaction without a description. The amount of the empty category is not found and
`<nil>` is printed instead of it. -/

def nilCols : Columns := [(some (str "A"), [⟨730000, [(some [], ⟨500, sampleCom⟩), (some (str "Shop"), ⟨700, sampleCom⟩)]⟩])]

/-- The full statement: no restriction on the cells. -/
def C139_Statement : Prop :=
  ∀ (fmtT : Option (Int → Str)) (label : Option Str → Str) (cols : Columns) (lines : List Str)
    (rows : List (Int × Str × List (Option Amount))), PeriodFormat fmtT → TableOk cols →
    tableText fmtT label cols = .ok lines → outputRows false cols = .ok rows →
    ∃ (cat : Bool) (ws : List Nat) (head : Str) (ls : List Str), lines = head :: ls ∧ (cat = true ↔ ∃ row ∈ rows, row.2.1 ≠ []) ∧
      (∃ cells, TableLine ws cells head ∧ List.Forall₂ Padded (leadTexts fmtT.isSome cat [] [] ++ cols.map (fun e => label e.1)) cells) ∧
      List.Forall₂ (fun (row : Int × Str × List (Option Amount)) line => ∃ cells amounts, TableLine ws cells line ∧
        List.Forall₂ (fun o s => ∃ a : Amount, o = some a ∧ a.string = .ok s) row.2.2 amounts ∧
        List.Forall₂ Padded (leadTexts fmtT.isSome cat (periodText fmtT row.1) row.2.1 ++ amounts) cells) rows ls

theorem nilTable : tableText (some formatMonth) (fun _ => str "A") nilCols =
    .ok [str "        |      |    A", str "1999/09 |      | <nil>", str "1999/09 | Shop | 7.00"] := ok_of_opt (by decide +kernel)

theorem C139_table_violated : ¬ C139_Statement := by
  intro h
  have hrows : outputRows false nilCols = .ok [(730000, [], [none]), (730000, str "Shop", [some ⟨700, sampleCom⟩])] := ok_of_opt (by decide +kernel)
  obtain ⟨cat, ws, head, ls, _, _, _, hf⟩ := h (some formatMonth) (fun _ => str "A") nilCols _ _ (.inr (.inr (.inl rfl))) (by
    have hy : goYear 730000 = 1999 := by decide +kernel
    refine ⟨?_, ?_⟩
    · intro e he
      simp only [nilCols, List.mem_singleton] at he
      subst he
      refine ⟨sampleCom, by decide, ?_⟩
      intro x hx
      simp only [List.mem_singleton] at hx
      subst hx
      exact ⟨by simp, by decide⟩
    · intro e he x hx
      simp only [nilCols, List.mem_singleton] at he
      subst he
      simp only [List.mem_singleton] at hx
      subst hx
      rw [hy]; decide) nilTable hrows
  cases hf with
  | cons h1 _ =>
    obtain ⟨cells, amounts, _, hf, _⟩ := h1
    cases hf with
    | cons ho _ => obtain ⟨a, ha, _⟩ := ho; simp at ha

end Verif
