import Verif.Props.RoundTrip
/-
C83: the layout of written transactions. The amounts end in one column unless a quantity has other decimals than its account's
commodity; the first note goes on the line itself exactly when the line stays below 80 bytes.
-/
namespace Verif

/-! ### Specification -/

/-- One of the lines is the posting's: its account, blanks and its amount, which ends at column `col`, then its commodity. -/
def LineEndsAt (col : Nat) (p : PPost) (lines : List Str) : Prop :=
  ∃ line ∈ lines, ∃ q num gap tail, p.quantity = some q ∧ q.string = .ok num ∧ (∀ c ∈ gap, c = ' ') ∧ 2 ≤ gap.length ∧
    line = (str "  " ++ p.account ++ gap ++ num) ++ (' ' :: q.com.id ++ tail) ∧ (str "  " ++ p.account ++ gap ++ num).length = col

/-- C83: the amounts of a written transaction end in one column. `dec a` are the decimals of account `a`'s commodity. -/
def C83_Statement : Prop :=
  ∀ (dec : Str → Nat) (t : PTxn) (lines : List Str), (∀ p ∈ t.postings, ∀ c ∈ p.account, c.toNat < 128) →
    (∀ p ∈ t.postings, ∀ q ∈ p.quantity, q.com.decimals ≤ 50 ∧ q.int.natAbs < 10 ^ 50) →
    writeTxn dec t = .ok lines → ∃ col, ∀ p ∈ t.postings, LineEndsAt col p lines

/-- Euros in an account of yens: the width of the column is computed with the account's decimals. -/
def exMisaligned : PTxn :=
  ⟨0, [], str "x", [], [⟨str "A", some ⟨500, ⟨0, str "EUR", 2⟩⟩, none, []⟩, ⟨str "B", some ⟨-5, ⟨1, str "JPY", 0⟩⟩, none, []⟩]⟩

theorem LineEndsAt.at_col {col : Nat} {p : PPost} {lines : List Str} (h : LineEndsAt col p lines) :
    ∃ line ∈ lines, ∃ q, p.quantity = some q ∧ (' ' :: q.com.id).isPrefixOf (line.drop col) = true := by
  obtain ⟨line, hl, q, num, gap, tail, hq, _, _, _, he, hc⟩ := h
  refine ⟨line, hl, q, hq, ?_⟩
  rw [he, ← hc, List.drop_left]
  exact List.isPrefixOf_iff_prefix.mpr ⟨tail, by simp⟩

theorem C83_aligned_violated : ¬ C83_Statement := by
  intro h
  have e : writeTxn (fun _ => 0) exMisaligned = .ok [str "0001/01/01 x", str "  A  5.00 EUR", str "  B  -5 JPY"] := by decide +kernel
  obtain ⟨col, hc⟩ := h (fun _ => 0) exMisaligned _ (by decide) (by decide) e
  obtain ⟨l1, hl1, q1, hq1, h1⟩ := (hc _ (List.mem_cons_self)).at_col
  obtain ⟨l2, hl2, q2, hq2, h2⟩ := (hc _ (List.mem_cons_of_mem _ (List.mem_cons_self))).at_col
  cases hq1
  cases hq2
  by_cases hlt : col < 20
  · have key : ∀ col < 20, ∀ a ∈ [str "0001/01/01 x", str "  A  5.00 EUR", str "  B  -5 JPY"],
        ∀ b ∈ [str "0001/01/01 x", str "  A  5.00 EUR", str "  B  -5 JPY"],
        ¬ ((' ' :: str "EUR").isPrefixOf (a.drop col) = true ∧ (' ' :: str "JPY").isPrefixOf (b.drop col) = true) := by decide +kernel
    exact key col hlt l1 hl1 l2 hl2 ⟨h1, h2⟩
  · have : l1.length ≤ col := by
      have : ∀ a ∈ [str "0001/01/01 x", str "  A  5.00 EUR", str "  B  -5 JPY"], a.length ≤ 20 := by decide
      have := this l1 hl1
      omega
    rw [List.drop_eq_nil_of_le this] at h1
    exact absurd h1 (by simp [List.isPrefixOf])

theorem blen_ascii (s : Str) (h : ∀ c ∈ s, c.toNat < 128) : blen s = s.length := by
  induction s with
  | nil => rfl
  | cons c s ih =>
    have hc : c.utf8Size = 1 := by
      have := h c (by simp)
      unfold Char.utf8Size
      rw [if_pos]
      show c.val.toNat ≤ (0x7f : UInt32).toNat
      show c.toNat ≤ 127
      omega
    have := ih (fun c hc => h c (by simp [hc]))
    unfold blen at *
    simp [hc, this]
    omega

theorem maxWidths_ge {dec : Str → Nat} : ∀ {ps : List PPost} {w : Nat × Nat}, maxWidths dec ps = .ok w → ∀ p ∈ ps, ∃ q v,
    p.quantity = some q ∧ q.width (dec p.account) = .ok v ∧ blen p.account ≤ w.1 ∧ v.toNat ≤ w.2
  | [], _, _, _, hp => by cases hp
  | p :: ps, w, h, x, hx => by
    unfold maxWidths at h
    cases hq : p.quantity with
    | none => rw [hq] at h; cases h
    | some q =>
      rw [hq] at h
      obtain ⟨v, hv, h⟩ := bind_ok.mp h
      obtain ⟨r, hr, h⟩ := bind_ok.mp h
      cases h
      rcases List.mem_cons.mp hx with rfl | hx
      · exact ⟨q, v, hq, hv, by simp, by simp⟩
      · obtain ⟨q', v', h1, h2, h3, h4⟩ := maxWidths_ge hr x hx
        exact ⟨q', v', h1, h2, by simp; omega, by simp; omega⟩

theorem writePostings_mem {maxn maxa : Nat} : ∀ {ps : List PPost} {lines : List Str}, writePostings maxn maxa ps = .ok lines → ∀ p ∈ ps,
    ∃ ls, writePosting maxn maxa p = .ok ls ∧ ∀ l ∈ ls, l ∈ lines
  | [], _, _, _, hp => by cases hp
  | p :: ps, lines, h, x, hx => by
    unfold writePostings at h
    obtain ⟨l, hl, h⟩ := bind_ok.mp h
    obtain ⟨r, hr, h⟩ := bind_ok.mp h
    cases h
    rcases List.mem_cons.mp hx with rfl | hx
    · exact ⟨l, hl, fun a ha => by simp [ha]⟩
    · obtain ⟨ls, h1, h2⟩ := writePostings_mem hr x hx
      exact ⟨ls, h1, fun a ha => by simp [h2 a ha]⟩

/-- The written head of a posting: whatever is appended to it. -/
theorem writePosting_line {maxn maxa : Nat} {p : PPost} {ls : List Str} {q : Amount} (hq : p.quantity = some q)
    (h : writePosting maxn maxa p = .ok ls) :
    ∃ amt tail, amountText (some maxa) q = .ok amt ∧ (str "  " ++ padRight maxn p.account ++ str "  " ++ amt) ++ tail ∈ ls := by
  unfold writePosting at h
  rw [hq] at h
  simp only [] at h
  obtain ⟨amt, ha, h⟩ := bind_ok.mp h
  obtain ⟨bal, hb, h⟩ := bind_ok.mp h
  cases h
  obtain ⟨n, long, e, _⟩ := withNote_split (str "  " ++ padRight maxn p.account ++ str "  " ++ amt ++ bal) p.notes
  rw [e]
  exact ⟨amt, bal ++ noteTail n, ha, by simp⟩

/-- **C83** The amounts of a written transaction end in one column, provided every quantity has as many decimals as the commodity of its
account. Missing: without the proviso it is false (`C83_aligned_violated`), and account names with other than ASCII characters are measured
in bytes but padded in characters. -/
theorem C83_aligned_partial (dec : Str → Nat) (t : PTxn) (lines : List Str) (hascii : ∀ p ∈ t.postings, ∀ c ∈ p.account, c.toNat < 128)
    (hsmall : ∀ p ∈ t.postings, ∀ q ∈ p.quantity, q.com.decimals ≤ 50 ∧ q.int.natAbs < 10 ^ 50)
    (hdec : ∀ p ∈ t.postings, ∀ q ∈ p.quantity, q.com.decimals = dec p.account)
    (h : writeTxn dec t = .ok lines) : ∃ col, ∀ p ∈ t.postings, LineEndsAt col p lines := by
  unfold writeTxn at h
  simp only [] at h
  obtain ⟨w, hw, h⟩ := bind_ok.mp h
  obtain ⟨ps, hps, h⟩ := bind_ok.mp h
  cases h
  refine ⟨2 + w.1 + 2 + w.2, fun p hp => ?_⟩
  obtain ⟨q, v, hq, hv, hn, ha⟩ := maxWidths_ge hw p hp
  obtain ⟨ls, hl, hsub⟩ := writePostings_mem hps p hp
  obtain ⟨amt, tail, hamt, hmem⟩ := writePosting_line hq hl
  obtain ⟨hd, hlt⟩ := hsmall p hp q (by simp [hq])
  obtain ⟨num, hs, hwid⟩ := C08_width q hd hlt
  rw [hdec p hp q (by simp [hq]), hv] at hwid
  cases hwid
  rw [blen_ascii _ (hascii p hp)] at hn
  rw [Int.toNat_natCast] at ha
  unfold amountText at hamt
  rw [format_some w.2 hd hs] at hamt
  cases hamt
  refine ⟨_, List.mem_append_right _ (hsub _ hmem), q, num, rep (w.1 - p.account.length) ' ' ++ str "  " ++ rep (w.2 - num.length) ' ', tail,
    hq, hs, ?_, ?_, ?_, ?_⟩
  · intro c hc
    simp only [List.mem_append] at hc
    rcases hc with (hc | hc) | hc
    · exact rep_blank _ c hc
    · revert c; decide
    · exact rep_blank _ c hc
  · have : (str "  ").length = 2 := rfl
    simp only [List.length_append, this]
    omega
  · simp [padRight, padLeft]
  · have : (str "  ").length = 2 := rfl
    simp only [List.length_append, this, rep, List.length_replicate]
    omega

theorem blen_append (a b : Str) : blen (a ++ b) = blen a + blen b := by
  simp [blen, List.map_append, List.sum_append]

theorem withNote_limit (line n : Str) (ns : List Str) :
    withNote line (n :: ns) = if blen (line ++ str " ; " ++ n) < 80 then (line ++ str " ; " ++ n, ns) else (line, n :: ns) := by
  have e3 : blen (str " ; ") = 3 := by decide
  have e : blen (line ++ str " ; " ++ n) = blen n + blen line + 3 := by
    rw [blen_append, blen_append, e3]; omega
  unfold withNote lineMax
  rw [e]
  simp only []
  by_cases hc : blen n + blen line < 77
  · rw [if_pos (show blen n + blen line < 80 - 3 from hc), if_pos (by omega)]
  · rw [if_neg (show ¬ blen n + blen line < 80 - 3 from hc), if_neg (by omega)]

/-- **C83** The first note is appended to the first line of a transaction exactly when the line stays below 80 bytes; the other notes follow
on lines of their own, in order, before the postings. `blen` counts bytes. -/
theorem C83_note_limit (dec : Str → Nat) (t : PTxn) (lines : List Str) (h : writeTxn dec t = .ok lines) :
    ∃ bare posts, writeTxn dec { t with notes := [] } = .ok (bare :: posts) ∧
      match t.notes with
      | [] => lines = bare :: posts
      | n :: ns =>
        if blen (bare ++ str " ; " ++ n) < 80 then lines = (bare ++ str " ; " ++ n) :: ns.map (fun x => str "  ; " ++ x) ++ posts
        else lines = bare :: (n :: ns).map (fun x => str "  ; " ++ x) ++ posts := by
  unfold writeTxn at h
  simp only [] at h
  obtain ⟨w, hw, h⟩ := bind_ok.mp h
  obtain ⟨ps, hps, h⟩ := bind_ok.mp h
  cases h
  refine ⟨headLine t, ps, ?_, ?_⟩
  · unfold writeTxn
    simp only [hw, Except.bind, hps, withNote]
    rfl
  · cases t.notes with
    | nil => simp [withNote]
    | cons n ns =>
      simp only [withNote_limit]
      split <;> rfl

/-- **C83** The same for the notes of a posting. -/
theorem C83_posting_note_limit (maxn maxa : Nat) (p : PPost) (lines : List Str) (h : writePosting maxn maxa p = .ok lines) :
    ∃ bare, writePosting maxn maxa { p with notes := [] } = .ok [bare] ∧
      match p.notes with
      | [] => lines = [bare]
      | n :: ns =>
        if blen (bare ++ str " ; " ++ n) < 80 then lines = (bare ++ str " ; " ++ n) :: ns.map (fun x => str "    ; " ++ x)
        else lines = bare :: (n :: ns).map (fun x => str "    ; " ++ x) := by
  unfold writePosting at h
  cases hq : p.quantity with
  | none => rw [hq] at h; cases h
  | some q =>
    rw [hq] at h
    simp only [] at h
    obtain ⟨amt, ha, h⟩ := bind_ok.mp h
    obtain ⟨bal, hb, h⟩ := bind_ok.mp h
    cases h
    generalize hbare : str "  " ++ padRight maxn p.account ++ str "  " ++ amt ++ bal = bare at *
    refine ⟨bare, ?_, ?_⟩
    · unfold writePosting
      simp only [hq, ha, Except.bind, *, withNote]
      rfl
    · cases p.notes with
      | nil => simp [withNote]
      | cons n ns =>
        simp only [withNote_limit]
        split <;> rfl

example : writeTxn (fun a => if a = str "A:B" then 2 else 0)
      ⟨0, [], str "x", [str "n"], [⟨str "A:B", some ⟨123456, ⟨0, str "EUR", 2⟩⟩, none, [str "m"]⟩, ⟨str "C", some ⟨-5, ⟨1, str "JPY", 0⟩⟩, none, []⟩]⟩ =
    .ok [str "0001/01/01 x ; n", str "  A:B  1234.56 EUR ; m", str "  C         -5 JPY"] := by decide +kernel

end Verif
