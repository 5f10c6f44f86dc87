import Mathlib.Data.List.Forall2
import Verif.Model.TextOut
import Verif.Lemmas.Format
import Verif.Props.Balance
import Verif.Props.RoundTrip
import Verif.Props.Writer
/-!
# Properties C137, C138: the text printed by `balance` and `register`
-/
namespace Verif

/-! ## Specification -/

/-- `cell` is the text `s` right adjusted in a column of `w` characters. -/
def RightIn (w : Nat) (s cell : Str) : Prop := ∃ n, cell = rep n ' ' ++ s ∧ n + s.length = w

/-- `cell` is the text `s` left adjusted in a column of `w` characters. -/
def LeftIn (w : Nat) (s cell : Str) : Prop := ∃ n, cell = s ++ rep n ' ' ∧ s.length + n = w

/-- A line of the balance command with columns of `w`, `cw` and `cur` characters: own total, cumulative total, commodity, name. -/
def BalanceRow (comOf : Str → Com) (w cw cur : Nat) (r : Str × Option Amount × Option Amount) (line : Str) : Prop :=
  ∃ own cum o c a b i, r.2.1 = some own ∧ r.2.2 = some cum ∧ own.string = .ok o ∧ cum.string = .ok c ∧
    own.com = comOf r.1 ∧ cum.com = comOf r.1 ∧
    RightIn w o a ∧ RightIn cw c b ∧ LeftIn cur (comOf r.1).id i ∧
    line = a ++ str " | " ++ b ++ str " " ++ i ++ str " | " ++ r.1

/-! ## Lemmas -/

theorem rightIn_pad {w : Nat} {s : Str} (h : s.length ≤ w) : RightIn w s (padStar w s) := by
  refine ⟨w - s.length, ?_, by omega⟩
  unfold padStar padLeft
  rw [if_neg (by omega)]; rfl

theorem leftIn_pad {w : Nat} {s : Str} (h : s.length ≤ w) : LeftIn w s (padRight w s) := ⟨w - s.length, rfl, by omega⟩

theorem length_le_blen (s : Str) : s.length ≤ blen s := by
  induction s with
  | nil => simp
  | cons c s ih =>
    have h1 : blen (c :: s) = c.utf8Size + blen s := by
      have := blen_append [c] s
      simpa [blen] using this
    have := c.utf8Size_pos
    simp only [List.length_cons]; omega

theorem addIn_com {conv : Conv} {a b x : Amount} (h : a.addIn conv b = .ok x) : x.com = a.com := by
  rw [addIn_delta] at h
  obtain ⟨y, _, hy⟩ := bind_ok.mp h
  injection hy with hy; rw [← hy]

theorem checkNoError_inv {α : Type} {r : Except Fault α} {x : α} (h : checkNoError r = .ok x) : r = .ok x := by
  unfold checkNoError at h
  split at h
  · simp at h
  · exact h

/-- Amounts of the map are in the commodities of their accounts. -/
def OwnComs (comOf : Str → Com) (m : AmtMap) : Prop := ∀ a x, m a = some x → x.com = comOf a

theorem ownTotals_coms (env : Env) (compile : Compile) (v : View) (f : Filters) : ∀ (l : List Str) (m m' : AmtMap),
    OwnComs env.comOf m → ownTotals env compile v f m l = .ok m' → OwnComs env.comOf m' := by
  intro l
  induction l with
  | nil => intro m m' h e; simp only [ownTotals] at e; injection e with e; rwa [← e]
  | cons a l ih =>
    intro m m' h e
    simp only [ownTotals] at e
    obtain ⟨ps, _, e⟩ := bind_ok.mp e
    obtain ⟨t, ht, e⟩ := bind_ok.mp e
    refine ih _ _ ?_ e
    intro b x hx
    simp only [AmtMap.set] at hx
    split at hx
    · rename_i hb; injection hx with hx; subst hx; rw [hb]; exact sumInto_com _ _ _ _ _ rfl (checkNoError_inv ht)
    · exact h b x hx

theorem addUp_coms (env : Env) (parent : Str → Option Str) (comOf : Str → Com) : ∀ (l : List Str) (m m' : AmtMap),
    OwnComs comOf m → addUp env parent m l = .ok m' → OwnComs comOf m' := by
  intro l
  induction l with
  | nil => intro m m' h e; simp only [addUp] at e; injection e with e; rwa [← e]
  | cons a l ih =>
    intro m m' h e
    simp only [addUp] at e
    split at e
    · exact ih _ _ h e
    · split at e
      · exact ih _ _ h e
      · rename_i p hp _ cump hcump
        split at e
        · simp at e
        · obtain ⟨x, hx, e⟩ := bind_ok.mp e
          refine ih _ _ ?_ e
          intro b y hy
          simp only [AmtMap.set] at hy
          split at hy
          · rename_i hb; injection hy with hy; subst hy; subst hb
            rw [addIn_com (checkNoError_inv hx)]; exact h _ _ hcump
          · exact h b y hy

theorem width_small {a : Amount} {d : Nat} {w : Int} (h : a.width d = .ok w) : a.int.natAbs < 10 ^ 50 := by
  by_contra hc
  rw [C08_width_panics a d (by omega)] at h
  simp at h

theorem balWidth_spec (comOf : Str → Com) (m : AmtMap) (hd : ∀ a, (comOf a).decimals ≤ 50) (hm : OwnComs comOf m) : ∀ (l : List Str) (w : Int),
    balWidth comOf m l = .ok w → 0 ≤ w ∧ ∀ a ∈ l, ∃ x s, m a = some x ∧ x.string = .ok s ∧ (s.length : Int) ≤ w := by
  intro l
  induction l with
  | nil => intro w h; simp only [balWidth] at h; injection h with h; subst h; simp
  | cons a l ih =>
    intro w h
    simp only [balWidth] at h
    split at h
    · simp at h
    · rename_i x hx
      obtain ⟨v, hv, h⟩ := bind_ok.mp h
      obtain ⟨r, hr, h⟩ := bind_ok.mp h
      injection h with h
      obtain ⟨h0, h1⟩ := ih r hr
      have hsm := width_small hv
      have hc := hm a x hx
      obtain ⟨s, hs, hw⟩ := C08_width x (by rw [hc]; exact hd a) hsm
      rw [hc, hv] at hw
      injection hw with hw
      have hle : v ≤ w ∧ r ≤ w := by subst h; split <;> omega
      refine ⟨by omega, ?_⟩
      intro b hb
      rcases List.mem_cons.mp hb with rfl | hb
      · exact ⟨x, s, hx, hs, by omega⟩
      · obtain ⟨y, t, g1, g2, g3⟩ := h1 b hb
        exact ⟨y, t, g1, g2, by omega⟩

theorem curWidth_ge (m : AmtMap) : ∀ (l : List Str), ∀ a ∈ l, ∀ x, m a = some x → blen x.com.id ≤ curWidth m l := by
  intro l
  induction l with
  | nil => intro a ha; simp at ha
  | cons b l ih =>
    intro a ha x hx
    simp only [curWidth]
    rcases List.mem_cons.mp ha with rfl | ha
    · rw [hx]; exact Nat.le_max_left _ _
    · have := ih a ha x hx
      split
      · exact this
      · exact Nat.le_trans this (Nat.le_max_right _ _)

theorem linesOf_ok {α : Type} (f : α → Except Fault Str) : ∀ (l : List α) (ls : List Str), linesOf f l = .ok ls →
    List.Forall₂ (fun x s => f x = .ok s) l ls := by
  intro l
  induction l with
  | nil => intro ls h; simp only [linesOf] at h; injection h with h; subst h; exact .nil
  | cons x l ih =>
    intro ls h
    simp only [linesOf] at h
    obtain ⟨s, hs, h⟩ := bind_ok.mp h
    obtain ⟨r, hr, h⟩ := bind_ok.mp h
    injection h with h
    subst h
    exact .cons hs (ih r hr)

theorem linesOf_total {α : Type} (f : α → Except Fault Str) : ∀ (l : List α), (∀ x ∈ l, ∃ s, f x = .ok s) → ∃ ls, linesOf f l = .ok ls := by
  intro l
  induction l with
  | nil => intro _; exact ⟨[], rfl⟩
  | cons x l ih =>
    intro h
    obtain ⟨s, hs⟩ := h x (by simp)
    obtain ⟨r, hr⟩ := ih (fun y hy => h y (by simp [hy]))
    exact ⟨s :: r, by simp only [linesOf, hs, hr, Except.bind]⟩

theorem balanceRows_mem (parent : Str → Option Str) (fuel : Nat) (level : Int) (zero : Bool) (totals cum : AmtMap) : ∀ (l : List Str) rows,
    balanceRows parent fuel level zero totals cum l = .ok rows → ∀ r ∈ rows, r.1 ∈ l ∧ r.2.1 = totals r.1 ∧ r.2.2 = cum r.1 := by
  intro l
  induction l with
  | nil => intro rows h; simp only [balanceRows] at h; injection h with h; subst h; simp
  | cons a l ih =>
    intro rows h r hr
    simp only [balanceRows] at h
    obtain ⟨skip, _, h⟩ := bind_ok.mp h
    obtain ⟨rs, hrs, h⟩ := bind_ok.mp h
    injection h with h
    have hcase : r ∈ rs ∨ r = (a, totals a, cum a) := by
      subst h
      split at hr
      · exact .inl hr
      · split at hr
        · rcases List.mem_cons.mp hr with h | h
          · exact .inr h
          · exact .inl h
        · exact .inl hr
    rcases hcase with h | h
    · obtain ⟨g1, g2⟩ := ih rs hrs r h
      exact ⟨by simp [g1], g2⟩
    · subst h; simp

theorem amountStar_ok {w : Int} {a : Amount} {s : Str} (h : a.string = .ok s) : amountStar w a = .ok (padStar w s) := by
  unfold amountStar; rw [h]; rfl

theorem forall2_imp_mem {α β : Type} {R S : α → β → Prop} {l : List α} {m : List β} (h : List.Forall₂ R l m)
    (hi : ∀ a ∈ l, ∀ b, R a b → S a b) : List.Forall₂ S l m := by
  induction h with
  | nil => exact .nil
  | cons hab _ ih => exact .cons (hi _ (by simp) _ hab) (ih (fun a ha => hi a (by simp [ha])))

/-! ## C137 -/

/-- **C137** Whenever the balance command prints something, it prints one line per row of `balanceCmd`, in order: own total, cumulative
total, commodity and name, with every column equally wide on all lines. -/
theorem C137_balance_aligned (env : Env) (compile : Compile) (v : View) (L : Links) (fuel : Nat) (f : Filters) (level : Int) (zero : Bool)
    (acc : Str) (lines : List Str) (hd : ∀ a, (env.comOf a).decimals ≤ 50)
    (h : balanceOut env compile v L fuel f level zero acc = .ok lines) :
    ∃ rows w cw cur, balanceCmd env compile v L fuel f level zero acc = .ok rows ∧
      List.Forall₂ (BalanceRow env.comOf w cw cur) rows lines := by
  unfold balanceOut at h
  obtain ⟨totals, h1, h⟩ := bind_ok.mp h
  obtain ⟨cum, h2, h⟩ := bind_ok.mp h
  obtain ⟨w, h3, h⟩ := bind_ok.mp h
  obtain ⟨cw, h4, h⟩ := bind_ok.mp h
  obtain ⟨rows, h5, h⟩ := bind_ok.mp h
  have c1 : OwnComs env.comOf totals := ownTotals_coms env compile v f _ _ _ (fun _ _ hx => by simp at hx) h1
  have c2 : OwnComs env.comOf cum := addUp_coms env L.parent env.comOf _ _ _ c1 h2
  obtain ⟨w0, hw⟩ := balWidth_spec env.comOf totals hd c1 _ w h3
  obtain ⟨cw0, hcw⟩ := balWidth_spec env.comOf cum hd c2 _ cw h4
  refine ⟨rows, w.toNat, cw.toNat, curWidth cum (subtree L.children fuel acc), ?_, ?_⟩
  · unfold balanceCmd; simp only [h1, h2, Except.bind]; exact h5
  have hmem := balanceRows_mem L.parent fuel level zero totals cum _ rows h5
  have hf := linesOf_ok _ rows lines h
  refine forall2_imp_mem hf ?_
  rintro ⟨a, t, c⟩ hr line hl
  obtain ⟨ha, ht, hc⟩ := hmem _ hr
  dsimp only at ha ht hc
  obtain ⟨x, o, hx, ho, hol⟩ := hw a ha
  obtain ⟨y, s, hy, hs, hsl⟩ := hcw a ha
  rw [hx] at ht; rw [hy] at hc
  subst ht; subst hc
  simp only [balanceLine, amountStar_ok ho, amountStar_ok hs, Except.bind] at hl
  injection hl with hl
  have e1 : ((w.toNat : Nat) : Int) = w := by omega
  have e2 : ((cw.toNat : Nat) : Int) = cw := by omega
  refine ⟨x, y, o, s, padStar w o, padStar cw s, _, rfl, rfl, ho, hs, c1 a x hx, c2 a y hy, ?_, ?_, ?_, hl.symm⟩
  · have := rightIn_pad (w := w.toNat) (s := o) (by omega); rwa [e1] at this
  · have := rightIn_pad (w := cw.toNat) (s := s) (by omega); rwa [e2] at this
  · refine leftIn_pad (Nat.le_trans (length_le_blen _) ?_)
    have := curWidth_ge cum _ a ha y hy
    rwa [c2 a y hy] at this

theorem balWidth_total (comOf : Str → Com) (m : AmtMap) : ∀ (l : List Str), (∀ a ∈ l, ∃ x, m a = some x ∧ x.int.natAbs < 10 ^ 50) →
    ∃ w, balWidth comOf m l = .ok w := by
  intro l
  induction l with
  | nil => intro _; exact ⟨0, rfl⟩
  | cons a l ih =>
    intro h
    obtain ⟨x, hx, hs⟩ := h a (by simp)
    obtain ⟨w, hw⟩ := width_ok x hs (comOf a).decimals
    obtain ⟨r, hr⟩ := ih (fun b hb => h b (by simp [hb]))
    exact ⟨_, by simp only [balWidth, hx, hw, hr, Except.bind]; rfl⟩

theorem balanceRows_all (parent : Str → Option Str) (fuel : Nat) (totals cum : AmtMap) (l : List Str) :
    balanceRows parent fuel 0 true totals cum l = .ok (l.map fun a => (a, totals a, cum a)) := by
  induction l with
  | nil => rfl
  | cons a l ih => simp [balanceRows, ih, Except.bind]

/-- **C137** The command prints its rows whenever it can compute them and no amount of the accounts it looks at (the rows without `-l`
and with `-z`) has more than 50 digits. -/
theorem C137_balance_printed (env : Env) (compile : Compile) (v : View) (L : Links) (fuel : Nat) (f : Filters) (level : Int) (zero : Bool)
    (acc : Str) (rows all : List (Str × Option Amount × Option Amount)) (hd : ∀ a, (env.comOf a).decimals ≤ 50)
    (h : balanceCmd env compile v L fuel f level zero acc = .ok rows)
    (ha : balanceCmd env compile v L fuel f 0 true acc = .ok all)
    (hsmall : ∀ r ∈ all, (∃ x, r.2.1 = some x ∧ x.int.natAbs < 10 ^ 50) ∧ ∃ y, r.2.2 = some y ∧ y.int.natAbs < 10 ^ 50) :
    ∃ lines, balanceOut env compile v L fuel f level zero acc = .ok lines := by
  unfold balanceCmd at h ha
  obtain ⟨totals, h1, h⟩ := bind_ok.mp h
  obtain ⟨cum, h2, h⟩ := bind_ok.mp h
  simp only [h1, h2, Except.bind, balanceRows_all] at ha
  injection ha with ha
  have hs : ∀ a ∈ subtree L.children fuel acc, (∃ x, totals a = some x ∧ x.int.natAbs < 10 ^ 50) ∧ ∃ y, cum a = some y ∧ y.int.natAbs < 10 ^ 50 := by
    intro a hm
    exact hsmall (a, totals a, cum a) (by rw [← ha]; exact List.mem_map.mpr ⟨a, hm, rfl⟩)
  obtain ⟨w, hw⟩ := balWidth_total env.comOf totals _ (fun a hm => (hs a hm).1)
  obtain ⟨cw, hcw⟩ := balWidth_total env.comOf cum _ (fun a hm => (hs a hm).2)
  have c1 : OwnComs env.comOf totals := ownTotals_coms env compile v f _ _ _ (fun _ _ hx => by simp at hx) h1
  have c2 : OwnComs env.comOf cum := addUp_coms env L.parent env.comOf _ _ _ c1 h2
  obtain ⟨ls, hls⟩ := linesOf_total (balanceLine env.comOf w cw (curWidth cum (subtree L.children fuel acc))) rows (by
    intro r hr
    obtain ⟨g1, g2, g3⟩ := balanceRows_mem L.parent fuel level zero totals cum _ rows h r hr
    obtain ⟨x, o, hx, ho, _⟩ := (balWidth_spec env.comOf totals hd c1 _ w hw).2 r.1 g1
    obtain ⟨y, s, hy, hsy, _⟩ := (balWidth_spec env.comOf cum hd c2 _ cw hcw).2 r.1 g1
    rw [hx] at g2; rw [hy] at g3
    exact ⟨_, by simp only [balanceLine, g2, g3, amountStar_ok ho, amountStar_ok hsy, Except.bind]; rfl⟩)
  exact ⟨ls, by unfold balanceOut; simp only [h1, h2, Except.bind, hw, hcw, h, hls]⟩

/-! ## C138: the register -/

/-- `cell` is the text `s` with blanks before or after it. -/
def Padded (s cell : Str) : Prop := ∃ n, cell = rep n ' ' ++ s ∨ cell = s ++ rep n ' '

/-- The padded fields of a line of the register. -/
structure RegCells where
  desc : Str
  acct : Str
  oacct : Str
  qty : Str
  tot : Str

/-- `line` shows the posting of the row `r` (posting, other posting, running total): date, description, with `-r` the posting's account,
the account of the other posting (both without the prefix `o.pre` and shortened), quantity, running total, commodity, `*` when the posting
asserts a balance, and with `-f` the location. -/
def RegisterLine (v : View) (pv : PrintView) (comOf : Str → Com) (o : PrintOpts) (long : Bool) (r : PRef × PRef × Amount)
    (c : RegCells) (line : Str) : Prop :=
  ∃ q t, (v.qty r.1).string = .ok q ∧ r.2.2.string = .ok t ∧
    Padded (v.payee r.1) c.desc ∧ Padded (shortenAccountName (trimPrefix (pv.account r.1) o.pre) o.acct) c.acct ∧
    Padded (shortenAccountName (trimPrefix (pv.account r.2.1) o.pre) o.acct) c.oacct ∧ Padded q c.qty ∧ Padded t c.tot ∧
    line = formatDate (v.date r.1) ++ str " | " ++ c.desc ++ (if long then str " | " ++ c.acct else []) ++ str " | " ++ c.oacct ++
      str " | " ++ c.qty ++ str " | " ++ c.tot ++ str " " ++ (comOf (pv.account r.1)).id ++ [if pv.asserted r.1 then '*' else ' '] ++
      (if o.location then str "| " ++ pv.location r.1 else [])

/-- The lines below a posting: with `-n` the notes of the posting and then those of its transaction. -/
def noteLines (v : View) (pv : PrintView) (notes : Bool) (p : PRef) : List Str :=
  if notes then (pv.notes p ++ pv.txnNotes p).map (fun n => rep (formatDate (v.date p)).length ' ' ++ str " ; " ++ n) else []

/-- The columns of a line have the given widths. -/
def HasWidths (w : Nat × Nat × Nat × Nat × Nat) (c : RegCells) : Prop :=
  c.desc.length = w.1 ∧ c.acct.length = w.2.1 ∧ c.oacct.length = w.2.2.1 ∧ c.qty.length = w.2.2.2.1 ∧ c.tot.length = w.2.2.2.2

theorem ok_of_opt {α : Type} {x : Except Fault α} {a : α} (h : x.toOption = some a) : x = .ok a := by
  cases x with
  | error e => simp [Except.toOption] at h
  | ok y => simp [Except.toOption] at h; rw [h]

theorem padded_padStar (w : Int) (s : Str) : Padded s (padStar w s) := by
  unfold padStar padLeft padRight
  split
  · exact ⟨_, .inr rfl⟩
  · exact ⟨_, .inl rfl⟩

theorem amountStar_inv {w : Int} {a : Amount} {c : Str} (h : amountStar w a = .ok c) : ∃ s, a.string = .ok s ∧ c = padStar w s := by
  unfold amountStar at h
  obtain ⟨s, hs, h⟩ := bind_ok.mp h
  injection h with h
  exact ⟨s, hs, h.symm⟩

/-- The cells printed with the widths `w` and `tw`. -/
def cellsOf (v : View) (pv : PrintView) (o : PrintOpts) (w : Int × Int × Int × Int) (tw : Int) (q t : Str) (r : PRef × PRef × Amount) : RegCells :=
  ⟨padStar (min w.1 maxDesc) (v.payee r.1), padStar (min w.2.1 o.acct) (shortenAccountName (trimPrefix (pv.account r.1) o.pre) o.acct),
   padStar (min w.2.2.2 o.acct) (shortenAccountName (trimPrefix (pv.account r.2.1) o.pre) o.acct), padStar w.2.2.1 q, padStar tw t⟩

theorem printLine_spec {v : View} {pv : PrintView} {comOf : Str → Com} {o : PrintOpts} {long : Bool} {w : Int × Int × Int × Int} {tw : Int}
    {r : PRef × PRef × Amount} {line : Str} (h : printLine v pv comOf o long w tw r = .ok line) :
    ∃ q t, (v.qty r.1).string = .ok q ∧ r.2.2.string = .ok t ∧ RegisterLine v pv comOf o long r (cellsOf v pv o w tw q t r) line := by
  unfold printLine at h
  obtain ⟨qc, hq, h⟩ := bind_ok.mp h
  obtain ⟨tc, ht, h⟩ := bind_ok.mp h
  injection h with h
  obtain ⟨q, hq', rfl⟩ := amountStar_inv hq
  obtain ⟨t, ht', rfl⟩ := amountStar_inv ht
  exact ⟨q, t, hq', ht', q, t, hq', ht', padded_padStar _ _, padded_padStar _ _, padded_padStar _ _, padded_padStar _ _, padded_padStar _ _, h.symm⟩

theorem printEntries_spec (v : View) (pv : PrintView) (comOf : Str → Com) (o : PrintOpts) (long : Bool) (w : Int × Int × Int × Int) (tw : Int) :
    ∀ (rows : List (PRef × PRef × Amount)) (out : List Str), printEntries v pv comOf o long w tw rows = .ok out →
    ∃ ls, List.Forall₂ (fun r line => printLine v pv comOf o long w tw r = .ok line) rows ls ∧
      out = (rows.zip ls).flatMap (fun e => e.2 :: noteLines v pv o.showNotes e.1.1) := by
  intro rows
  induction rows with
  | nil => intro out h; simp only [printEntries] at h; injection h with h; exact ⟨[], .nil, by simp [← h]⟩
  | cons r rows ih =>
    intro out h
    simp only [printEntries] at h
    obtain ⟨e, he, h⟩ := bind_ok.mp h
    obtain ⟨rest, hr, h⟩ := bind_ok.mp h
    injection h with h
    unfold printEntry at he
    obtain ⟨line, hl, he⟩ := bind_ok.mp he
    injection he with he
    obtain ⟨ls, h1, h2⟩ := ih rest hr
    refine ⟨line :: ls, .cons hl h1, ?_⟩
    rw [← h, ← he, h2]
    simp only [List.zip_cons_cons, List.flatMap_cons, noteLines]
    congr 2
    cases o.showNotes
    · simp
    · simp [str]

/-- The shortened name fits the column. -/
def NameFits (size : Int) (n : Str) : Prop := (n.length : Int) ≤ size ∨ minimalLength (splitOn ':' n) ≤ size

theorem shorten_le {size : Int} {n : Str} {w : Int} (hf : NameFits size n) (hw : (n.length : Int) ≤ w) :
    ((shortenAccountName n size).length : Int) ≤ min w size := by
  by_cases h : (n.length : Int) ≤ size
  · rw [(C25_shorten n size).1 h]; omega
  · rw [((C25_shorten n size).2 (by omega)).2]
    have := hf.resolve_left h
    omega

theorem printWidths_ge (v : View) (pv : PrintView) (comOf : Str → Com) (pre : Str) : ∀ (rows : List (PRef × PRef × Amount)) w,
    printWidths v pv comOf pre rows = .ok w → ∀ r ∈ rows, (blen (v.payee r.1) : Int) ≤ w.1 ∧
      (blen (trimPrefix (pv.account r.1) pre) : Int) ≤ w.2.1 ∧ (blen (pv.account r.2.1) : Int) ≤ w.2.2.2 ∧
      ∃ x, (v.qty r.1).width (comOf (pv.account r.1)).decimals = .ok x ∧ x ≤ w.2.2.1 := by
  intro rows
  induction rows with
  | nil => intro w _ r hr; simp at hr
  | cons r rows ih =>
    intro w h s hs
    simp only [printWidths] at h
    obtain ⟨x, hx, h⟩ := bind_ok.mp h
    obtain ⟨y, hy, h⟩ := bind_ok.mp h
    injection h with h
    subst h
    dsimp only
    rcases List.mem_cons.mp hs with rfl | hs
    · exact ⟨by omega, by omega, by omega, x, hx, by omega⟩
    · obtain ⟨g1, g2, g3, z, g4, g5⟩ := ih y hy s hs
      exact ⟨by omega, by omega, by omega, z, g4, by omega⟩

theorem padStar_length {w : Int} {s : Str} (h : (s.length : Int) ≤ w) : (padStar w s).length = w.toNat := by
  unfold padStar padLeft rep
  rw [if_neg (by omega)]
  simp only [List.length_append, List.length_replicate]
  omega

theorem runningTotals_com {conv : Conv} : ∀ {l : List Amount} {t : Amount} {ts : List Amount}, runningTotals conv t l = .ok ts →
    ∀ x ∈ ts, x.com = t.com := by
  intro l
  induction l with
  | nil => intro t ts h; simp only [runningTotals] at h; injection h with h; subst h; simp
  | cons q l ih =>
    intro t ts h x hx
    simp only [runningTotals] at h
    obtain ⟨t', ht, h⟩ := bind_ok.mp h
    obtain ⟨r, hr, h⟩ := bind_ok.mp h
    injection h with h
    subst h
    have hc := addIn_com (checkNoError_inv ht)
    rcases List.mem_cons.mp hx with rfl | hx
    · exact hc
    · rw [ih hr x hx, hc]

theorem printRows_com {conv : Conv} {v : View} {sib : PRef → List PRef} {com : Com} {ps : List PRef} {rows}
    (h : printRows conv v sib com ps = .ok rows) : ∀ r ∈ rows, r.2.2.com = com := by
  unfold printRows at h
  split at h
  · simp at h
  · obtain ⟨ts, hts, h⟩ := bind_ok.mp h
    injection h with h
    subst h
    intro r hr
    obtain ⟨e, he, rfl⟩ := List.mem_map.mp hr
    have : e.2 ∈ ts := (List.of_mem_zip he).2
    exact runningTotals_com hts e.2 this

theorem fullRegister_com {env : Env} {compile : Compile} {v : View} {sib : PRef → List PRef} {L : Links} {fuel : Nat} {f : Filters}
    {recurse : Bool} {acc : Str} {rows} (h : fullRegister env compile v sib L fuel f recurse acc = .ok rows) :
    ∀ r ∈ rows, r.2.2.com = env.comOf acc := by
  unfold fullRegister at h
  split at h
  · obtain ⟨l, _, h⟩ := bind_ok.mp h; exact printRows_com h
  · obtain ⟨l, _, h⟩ := bind_ok.mp h; exact printRows_com h

/-- **C138** The register prints a heading and then, for every posting of the register in order, one line with its date, description,
accounts, quantity, running total, commodity and assertion mark, followed with `-n` by the notes of the posting and of its transaction. -/
theorem C138_register_lines (env : Env) (compile : Compile) (v : View) (pv : PrintView) (siblings : PRef → List PRef) (L : Links) (fuel : Nat)
    (f : Filters) (recurse location notes : Bool) (maxAcct : Int) (acc : Str) (out : List Str)
    (h : registerOut env compile v pv siblings L fuel f recurse location notes maxAcct acc = .ok out) :
    ∃ rows ls, fullRegister env compile v siblings L fuel f recurse acc = .ok rows ∧
      List.Forall₂ (fun r line => ∃ c, RegisterLine v pv env.comOf ⟨acc, location, maxAcct, env.comOf acc, notes⟩ recurse r c line) rows ls ∧
      out = (acc ++ ' ' :: (env.comOf acc).id) :: (rows.zip ls).flatMap (fun e => e.2 :: noteLines v pv notes e.1.1) := by
  unfold registerOut at h
  obtain ⟨rows, h1, h⟩ := bind_ok.mp h
  obtain ⟨ts, h2, h⟩ := bind_ok.mp h
  injection h with hout
  have hhead : acc ++ str " " ++ (env.comOf acc).id = acc ++ ' ' :: (env.comOf acc).id := by simp [str]
  rw [hhead] at hout
  unfold printText at h2
  rcases hlast : rows.getLast? with _ | last
  · have hnil := hlast
    rw [hlast] at h2
    injection h2 with h2
    have : rows = [] := List.getLast?_eq_none_iff.mp hnil
    subst this
    exact ⟨[], [], h1, .nil, by rw [← hout, ← h2]; rfl⟩
  · rw [hlast] at h2
    dsimp only at h2
    obtain ⟨w, _, h2⟩ := bind_ok.mp h2
    obtain ⟨tw, _, h2⟩ := bind_ok.mp h2
    obtain ⟨ls, h3, h4⟩ := printEntries_spec v pv env.comOf _ recurse w tw rows ts h2
    refine ⟨rows, ls, h1, h3.imp ?_, by rw [← hout, h4]⟩
    intro r line hl
    obtain ⟨q, t, _, _, hrl⟩ := printLine_spec hl
    exact ⟨_, hrl⟩

/-- What a user expects of the layout: every column is equally wide on all lines. -/
def C138_Statement : Prop :=
  ∀ (env : Env) (compile : Compile) (v : View) (pv : PrintView) (siblings : PRef → List PRef) (L : Links) (fuel : Nat)
    (f : Filters) (recurse location notes : Bool) (maxAcct : Int) (acc : Str) (out : List Str) (rows : List (PRef × PRef × Amount)),
    (∀ a, (env.comOf a).decimals ≤ 50) → (∀ p, (v.qty p).com = env.comOf (pv.account p)) →
    (∀ p, 0 ≤ goYear (v.date p) ∧ goYear (v.date p) ≤ 9999) → 0 < maxAcct →
    registerOut env compile v pv siblings L fuel f recurse location notes maxAcct acc = .ok out →
    fullRegister env compile v siblings L fuel f recurse acc = .ok rows →
    ∃ ls w, List.Forall₂ (fun r line => ∃ c, RegisterLine v pv env.comOf ⟨acc, location, maxAcct, env.comOf acc, notes⟩ recurse r c line ∧
        HasWidths w c) rows ls ∧
      out = (acc ++ ' ' :: (env.comOf acc).id) :: (rows.zip ls).flatMap (fun e => e.2 :: noteLines v pv notes e.1.1)

theorem printEntries_zero (v : View) (pv : PrintView) (comOf : Str → Com) (pre : Str) (location notes long : Bool) (com : Com) (w : Int × Int × Int × Int) (tw : Int) :
    ∀ rows, printEntries v pv comOf ⟨pre, location, 0, com, notes⟩ long w tw rows = printEntries v pv comOf ⟨pre, location, 15, com, notes⟩ long w tw rows
  | [] => rfl
  | r :: l => by
    unfold printEntries
    rw [printEntries_zero v pv comOf pre location notes long com w tw l]
    rfl

/-- **C138** With `-l 0` names are shortened to 15 characters. -/
theorem C138_zero_width (env : Env) (compile : Compile) (v : View) (pv : PrintView) (siblings : PRef → List PRef) (L : Links) (fuel : Nat)
    (f : Filters) (recurse location notes : Bool) (acc : Str) :
    registerOut env compile v pv siblings L fuel f recurse location notes 0 acc =
      registerOut env compile v pv siblings L fuel f recurse location notes 15 acc := by
  unfold registerOut printText
  simp only [printEntries_zero]

/-- **C138** (partial) The columns are equally wide when no description has more than 50 characters, the account names can be shortened to
the width given with `-l`, and no running total is wider than the last one. Without these conditions the layout is lost
(`C138_columns_violated`). -/
theorem C138_columns_partial (env : Env) (compile : Compile) (v : View) (pv : PrintView) (siblings : PRef → List PRef) (L : Links) (fuel : Nat)
    (f : Filters) (recurse location notes : Bool) (maxAcct : Int) (acc : Str) (out : List Str) (rows : List (PRef × PRef × Amount))
    (hd : ∀ a, (env.comOf a).decimals ≤ 50) (hq : ∀ p, (v.qty p).com = env.comOf (pv.account p)) (hm : 0 < maxAcct)
    (h : registerOut env compile v pv siblings L fuel f recurse location notes maxAcct acc = .ok out)
    (hr : fullRegister env compile v siblings L fuel f recurse acc = .ok rows)
    (hdesc : ∀ r ∈ rows, (v.payee r.1).length ≤ 50)
    (hname : ∀ r ∈ rows, NameFits maxAcct (trimPrefix (pv.account r.1) acc) ∧ NameFits maxAcct (trimPrefix (pv.account r.2.1) acc))
    (htot : ∀ last ∈ rows.getLast?, ∀ r ∈ rows, ∀ s t, r.2.2.string = .ok s → last.2.2.string = .ok t → s.length ≤ t.length) :
    ∃ ls w, List.Forall₂ (fun r line => ∃ c, RegisterLine v pv env.comOf ⟨acc, location, maxAcct, env.comOf acc, notes⟩ recurse r c line ∧
        HasWidths w c) rows ls ∧
      out = (acc ++ ' ' :: (env.comOf acc).id) :: (rows.zip ls).flatMap (fun e => e.2 :: noteLines v pv notes e.1.1) := by
  unfold registerOut at h
  rw [hr] at h
  obtain ⟨ts, h2, h⟩ := bind_ok.mp (show (printText v pv env.comOf ⟨acc, location, maxAcct, env.comOf acc, notes⟩ recurse rows).bind _ = .ok out from h)
  injection h with hout
  have hhead : acc ++ str " " ++ (env.comOf acc).id = acc ++ ' ' :: (env.comOf acc).id := by simp [str]
  rw [hhead] at hout
  have htc := fullRegister_com hr
  unfold printText at h2
  rcases hlast : rows.getLast? with _ | last
  · have hnil := hlast
    rw [hlast] at h2
    injection h2 with h2
    have : rows = [] := List.getLast?_eq_none_iff.mp hnil
    subst this
    exact ⟨[], (0, 0, 0, 0, 0), .nil, by rw [← hout, ← h2]; rfl⟩
  · rw [hlast] at h2
    dsimp only at h2
    obtain ⟨w, hw, h2⟩ := bind_ok.mp h2
    obtain ⟨tw, htw, h2⟩ := bind_ok.mp h2
    obtain ⟨ls, h3, h4⟩ := printEntries_spec v pv env.comOf _ recurse w tw rows ts h2
    have hge := printWidths_ge v pv env.comOf acc rows w hw
    have hlm : last ∈ rows := List.mem_of_getLast? hlast
    obtain ⟨lt, hlt, hltw⟩ := C08_width last.2.2 (by rw [htc last hlm]; exact hd acc) (width_small htw)
    rw [htc last hlm] at hltw
    rw [htw] at hltw
    injection hltw with hltw
    have hacct : (⟨acc, location, maxAcct, env.comOf acc, notes⟩ : PrintOpts).acct = maxAcct := by
      unfold PrintOpts.acct; rw [if_neg (by dsimp only; omega)]
    refine ⟨ls, ((min w.1 maxDesc).toNat, (min w.2.1 maxAcct).toNat, (min w.2.2.2 maxAcct).toNat, w.2.2.1.toNat, tw.toNat), ?_, by rw [← hout, h4]⟩
    refine forall2_imp_mem h3 ?_
    intro r hrm line hl
    obtain ⟨q, t, hqs, hts, hrl⟩ := printLine_spec hl
    refine ⟨_, hrl, ?_⟩
    obtain ⟨g1, g2, g3, x, g4, g5⟩ := hge r hrm
    have l1 := length_le_blen (v.payee r.1)
    have l2 := length_le_blen (trimPrefix (pv.account r.1) acc)
    have l3 := length_le_blen (pv.account r.2.1)
    have l4 : (trimPrefix (pv.account r.2.1) acc).length ≤ (pv.account r.2.1).length := by
      unfold trimPrefix; split <;> simp
    have hdl := hdesc r hrm
    obtain ⟨n1, n2⟩ := hname r hrm
    refine ⟨padStar_length ?_, ?_, ?_, padStar_length ?_, padStar_length ?_⟩
    · unfold maxDesc; omega
    · simp only [cellsOf, hacct]
      exact padStar_length (shorten_le n1 (by omega))
    · simp only [cellsOf, hacct]
      exact padStar_length (shorten_le n2 (by omega))
    · obtain ⟨q', hq', hqw⟩ := C08_width (v.qty r.1) (by rw [hq]; exact hd _) (width_small g4)
      rw [hq, g4] at hqw
      injection hqw with hqw
      rw [hqs] at hq'; injection hq' with hq'; subst hq'
      omega
    · have := htot last hlast r hrm t lt hts hlt
      omega

/-- C137 on a small tree. -/
example : balanceOut sampleEnv (fun _ => none) balView balLinks 5 ⟨none, none, [], []⟩ 0 false (str "A") =
    .ok [str " 0.00 |  0.10 CAD | A", str " 0.12 |  0.12 CAD | A:B", str "-0.02 | -0.02 CAD | A:C"] := by
  exact ok_of_opt (by decide +kernel)

/-! A withdrawal that empties the account: the last running total, 0.00, is narrower than the one before. -/

def regView : View := ⟨fun a => if a = str "A" then [0, 2] else if a = str "B" then [1, 3] else [], fun p => if p < 2 then 730000 else 730002, fun _ => str "x",
  fun _ => none, fun _ => none, fun p => ⟨[10000, -10000, -10000, 10000].getD p 0, sampleCom⟩⟩
def regPView : PrintView := ⟨fun p => if p % 2 = 0 then str "A" else str "B", fun p => decide (p = 2), fun p => if p = 0 then [str "n"] else [],
  fun _ => [], fun _ => []⟩
def regSiblings (p : PRef) : List PRef := if p < 2 then [0, 1] else [2, 3]

/-- What is printed: the second total is narrower than the first. -/
theorem regSample : registerOut sampleEnv (fun _ => none) regView regPView regSiblings ⟨fun _ => none, fun _ => []⟩ 5 ⟨none, none, [], []⟩
    false false true 12 (str "A") =
    .ok [str "A CAD", str "1999/09/04 | x | B |  100.00 | 100.00 CAD ", str "           ; n", str "1999/09/06 | x | B | -100.00 | 0.00 CAD*"] := by
  exact ok_of_opt (by decide +kernel)

theorem regRows : fullRegister sampleEnv (fun _ => none) regView regSiblings ⟨fun _ => none, fun _ => []⟩ 5 ⟨none, none, [], []⟩
    false (str "A") = .ok [(0, 1, ⟨10000, sampleCom⟩), (2, 3, ⟨0, sampleCom⟩)] := by
  exact ok_of_opt (by decide +kernel)

theorem registerLine_length {v : View} {pv : PrintView} {comOf : Str → Com} {o : PrintOpts} {r : PRef × PRef × Amount} {c : RegCells} {line : Str}
    {w : Nat × Nat × Nat × Nat × Nat} (h : RegisterLine v pv comOf o false r c line) (hw : HasWidths w c) (hl : o.location = false) :
    line.length = (formatDate (v.date r.1)).length + w.1 + w.2.2.1 + w.2.2.2.1 + w.2.2.2.2 + (comOf (pv.account r.1)).id.length + 14 := by
  obtain ⟨q, t, _, _, _, _, _, _, _, he⟩ := h
  obtain ⟨h1, h2, h3, h4, h5⟩ := hw
  have e1 : (str " | ").length = 3 := by decide
  have e2 : (str " ").length = 1 := by decide
  simp only [hl, Bool.false_eq_true, if_false] at he
  have he' := congrArg List.length he
  simp only [List.length_append, h1, h3, h4, h5, e1, e2, List.length_nil, List.length_singleton] at he'
  rw [he']
  ring

/-- **C138** The layout is lost when the last running total is narrower than an earlier one, as when a withdrawal empties the account. -/
theorem C138_columns_violated : ¬ C138_Statement := by
  intro h
  obtain ⟨ls, w, hf, hout⟩ := h sampleEnv (fun _ => none) regView regPView regSiblings ⟨fun _ => none, fun _ => []⟩ 5 ⟨none, none, [], []⟩
    false false true 12 (str "A") _ _ (fun _ => (by decide : sampleCom.decimals ≤ 50)) (fun p => rfl) (by
      intro p
      have h1 : goYear 730000 = 1999 := by decide +kernel
      have h2 : goYear 730002 = 1999 := by decide +kernel
      unfold regView
      dsimp only
      split
      · rw [h1]; decide
      · rw [h2]; decide) (by decide) regSample regRows
  cases hf with
  | cons h1 hf =>
    cases hf with
    | cons h2 hf =>
      cases hf
      obtain ⟨c1, l1, w1⟩ := h1
      obtain ⟨c2, l2, w2⟩ := h2
      have e1 := registerLine_length l1 w1 rfl
      have e2 := registerLine_length l2 w2 rfl
      have n1 : noteLines regView regPView true 0 = [str "           ; n"] := by decide +kernel
      have n2 : noteLines regView regPView true 2 = [] := by decide +kernel
      simp only [List.zip_cons_cons, List.zip_nil_right, List.flatMap_cons, List.flatMap_nil, n1, n2, List.cons_append, List.nil_append,
        List.append_nil, List.cons.injEq, and_true, true_and] at hout
      obtain ⟨-, g1, g2⟩ := hout
      rw [← g1] at e1
      rw [← g2] at e2
      have f1 : (str "1999/09/04 | x | B |  100.00 | 100.00 CAD ").length = 42 := by decide
      have f2 : (str "1999/09/06 | x | B | -100.00 | 0.00 CAD*").length = 40 := by decide
      have d1 : (formatDate (regView.date 0)).length = 10 := by decide +kernel
      have d2 : (formatDate (regView.date 2)).length = 10 := by decide +kernel
      have i1 : (sampleEnv.comOf (regPView.account 0)).id.length = 3 := by decide
      have i2 : (sampleEnv.comOf (regPView.account 2)).id.length = 3 := by decide
      dsimp only at e1 e2
      rw [f1, d1, i1] at e1
      rw [f2, d2, i2] at e2
      omega

end Verif
