import Mathlib.Data.List.Forall2
import Verif.Props.WebChain
import Verif.Props.ViewColumns
/-!
# C114 (continued), C149: the page over several commodities
-/
namespace Verif

/-! ## C114: what a conversion yields -/

theorem solid_dst {all : List WPrice} {cv : WConv} (d : Int) : ∀ {v : Amount}, Solid all cv → cv.value (wPricesOf all) d = .ok v → v.com = cv.dst := by
  induction cv with
  | direct s t =>
    intro v h hv
    obtain ⟨p, hp, h1, h2⟩ := h
    obtain ⟨q, hq1, hq⟩ := C113_total (wPricesOf all s t) (pricesOf_sorted all s t)
      (List.ne_nil_of_mem ((pricesOf_mem all s t p).mpr ⟨hp, h1, h2⟩)) d
    unfold WConv.value at hv
    rw [hq] at hv
    injection hv with hv
    subst hv
    exact ((pricesOf_mem all s t q).mp hq1).2.2
  | comp c1 c2 _ h2 =>
    intro v h hv
    unfold WConv.value at hv
    obtain ⟨x, _, hv⟩ := bind_ok.mp hv
    obtain ⟨w, hw, hv⟩ := bind_ok.mp hv
    injection hv with hv
    subst hv
    show w.com = c2.dst
    exact h2 h.2 hw

/-- **C114** What a conversion yields: the amount itself if it already is in the commodity, zero for zero, and otherwise an amount in
the commodity, obtained with a price in that commodity. -/
theorem C114_result (all : List WPrice) (m : ConvMap) (hm : Reached all m) (U : List Com) (hU : Covers U all) (a : Amount) (dst : Com) (hs : a.com ∈ U)
    (fuel : Nat) (hf : 2 * U.length < fuel) (date : Int) (b : Amount) (m' : ConvMap) (h : wConvert (wPricesOf all) m fuel dst a date = .ok (b, m')) :
    b.com = dst ∧ (a.com = dst → b = a) ∧ (a.int = 0 → b.int = 0) ∧ (a.com ≠ dst → a.int ≠ 0 → ∃ v : Amount, v.com = dst ∧ b = wConvertTo a v) := by
  unfold wConvert at h
  by_cases hd : a.com = dst
  · rw [if_pos hd] at h
    injection h with h
    rw [Prod.mk.injEq] at h
    obtain ⟨rfl, _⟩ := h
    exact ⟨hd, fun _ => rfl, fun h => h, fun h => absurd hd h⟩
  rw [if_neg hd] at h
  by_cases ha : a.int = 0
  · rw [if_pos ha] at h
    injection h with h
    rw [Prod.mk.injEq] at h
    obtain ⟨rfl, _⟩ := h
    exact ⟨rfl, fun h => absurd h hd, fun _ => rfl, fun _ h => absurd ha h⟩
  rw [if_neg ha] at h
  obtain ⟨r, m2, e1, _, e2, e3⟩ := find_spec (dst := dst) (reached_state hm) hU hs hf
  rw [e1] at h
  obtain ⟨x, hx, h⟩ := bind_ok.mp h
  injection hx with hx
  subst hx
  cases r with
  | none => cases h
  | some cv =>
    obtain ⟨v, hv, h⟩ := bind_ok.mp h
    injection h with h
    rw [Prod.mk.injEq] at h
    obtain ⟨rfl, _⟩ := h
    have hc : v.com = dst := by rw [solid_dst date (e3 cv rfl) hv]; exact e2.2.1
    exact ⟨hc, fun h => absurd h hd, fun h => absurd h ha, fun _ _ => ⟨v, hc, rfl⟩⟩

/-! ## Specification -/

/-- `n` smallest units of `c` is what `x` is worth in `c` at `date`: its own units if it is in `c`, else what the conversion yields. -/
def WorthAt (conv : Com → Amount → Int → Except Fault Amount) (c : Com) (date : Int) (x : Amount) (n : Int) : Prop :=
  (x.com = c ∧ n = x.int) ∨ (x.com ≠ c ∧ ∃ y, conv c x date = .ok y ∧ n = y.int)

/-- Starting with `t` and adding the numbers one by one stays within the whole numbers a JavaScript number can hold. -/
def RunsFit (t : Int) (ns : List Int) : Prop := ∀ k : Nat, (t + (ns.take k).sum).natAbs ≤ 2 ^ 53

theorem worthAt_unique {conv : Com → Amount → Int → Except Fault Amount} {c : Com} {d : Int} {x : Amount} {m n : Int} (h : WorthAt conv c d x m)
    (h' : WorthAt conv c d x n) : m = n := by
  rcases h with ⟨h1, h2⟩ | ⟨h1, y, h2, h3⟩ <;> rcases h' with ⟨h1', h2'⟩ | ⟨h1', y', h2', h3'⟩
  · rw [h2, h2']
  · exact absurd h1 h1'
  · exact absurd h1' h1
  · rw [h2] at h2'; injection h2' with e; subst e; rw [h3, h3']

theorem wAddIn_worth {conv : Com → Amount → Int → Except Fault Amount} {t a t' : Amount} {date : Int} (h : wAddIn conv t a date = .ok t') :
    ∃ n, WorthAt conv t.com date a n ∧ t' = ⟨dbl (t.int + n), t.com⟩ := by
  unfold wAddIn at h
  by_cases hc : a.com = t.com
  · rw [if_pos hc] at h
    injection h with h
    exact ⟨a.int, .inl ⟨hc, rfl⟩, h.symm⟩
  · rw [if_neg hc] at h
    obtain ⟨b, hb, h⟩ := bind_ok.mp h
    injection h with h
    exact ⟨b.int, .inr ⟨hc, b, hb, rfl⟩, h.symm⟩

theorem RunsFit.head {t n : Int} {ns : List Int} (h : RunsFit t (n :: ns)) : dbl (t + n) = t + n :=
  dbl_exact _ (by simpa using h 1)

theorem RunsFit.tail {t n : Int} {ns : List Int} (h : RunsFit t (n :: ns)) : RunsFit (t + n) ns := by
  intro k
  have := h (k + 1)
  rw [List.take_succ_cons, List.sum_cons, ← Int.add_assoc] at this
  exact this

/-! ## C149: registers -/

theorem vRows_worth (conv : Com → Amount → Int → Except Fault Amount) (off : Int) : ∀ (l : List VPost) (t : Amount) (rows : List VRow),
    vRows conv off t l = .ok rows →
    ∃ ns, List.Forall₂ (fun (v : VPost) n => WorthAt conv t.com v.txn.posted v.post.quantity n) l ns ∧ rows.length = l.length ∧
      (RunsFit t.int ns → ∀ (i : Nat) (r : VRow), rows[i]? = some r → r.total = ⟨t.int + (ns.take (i + 1)).sum, t.com⟩) := by
  intro l
  induction l with
  | nil => intro t rows h; injection h with h; subst h; exact ⟨[], .nil, rfl, fun _ i r h => by simp at h⟩
  | cons v l ih =>
    intro t rows h
    unfold vRows at h
    obtain ⟨t1, h1, h⟩ := bind_ok.mp h
    obtain ⟨o, _, h⟩ := bind_ok.mp h
    obtain ⟨rest, h3, h⟩ := bind_ok.mp h
    injection h with h; subst h
    obtain ⟨n, hn, rfl⟩ := wAddIn_worth h1
    obtain ⟨ns, i1, i2, i3⟩ := ih _ rest h3
    refine ⟨n :: ns, .cons hn i1, by simp [i2], ?_⟩
    intro hf i r hi
    have hd := hf.head
    cases i with
    | zero =>
      simp only [List.getElem?_cons_zero, Option.some.injEq] at hi
      subst hi
      simp [hd]
    | succ i =>
      rw [List.getElem?_cons_succ] at hi
      have := i3 (by dsimp only; rw [hd]; exact hf.tail) i r hi
      rw [this]
      dsimp only
      rw [hd, List.take_succ_cons, List.sum_cons, Int.add_assoc]

/-- **C149** (register): whatever commodities the postings are in, the total of a row is the sum of what the postings up to it are worth
in the commodity of the account, each at the date of its posting. -/
theorem C149_register (conv : Com → Amount → Int → Except Fault Amount) (off : Int) (ts : List WTxn) (hts : TxnsSorted ts) (a : WAcct) (start stop : Int)
    (rows : List VRow) (shown : List VPost)
    (hs : shown = (acctPosts ts a.fullName).filter (fun v => decide (start ≤ v.txn.posted ∧ v.txn.posted ≤ stop)))
    (h : viewRegisterFull conv off ts a start stop = .ok rows) :
    ∃ ns, List.Forall₂ (fun (v : VPost) n => WorthAt conv a.com v.txn.posted v.post.quantity n) shown ns ∧ rows.length = shown.length ∧
      (RunsFit 0 ns → ∀ (i : Nat) (r : VRow), rows[i]? = some r → r.total = ⟨(ns.take (i + 1)).sum, a.com⟩) := by
  unfold viewRegisterFull at h
  rw [trim_filter _ (acctPosts_sorted ts hts _), ← hs] at h
  simpa using vRows_worth conv off shown ⟨0, a.com⟩ rows h

theorem vSubRows_worth (conv : Com → Amount → Int → Except Fault Amount) (off : Int) (a : WAcct) : ∀ (l : List VPost) (t : Amount) (rows : List VSubRow),
    vSubRows conv off a t l = .ok rows →
    ∃ ns, List.Forall₂ (fun (v : VPost) n => WorthAt conv t.com v.txn.posted v.post.quantity n) l ns ∧ rows.length = l.length ∧
      (RunsFit t.int ns → ∀ (i : Nat) (r : VSubRow), rows[i]? = some r → r.total = ⟨t.int + (ns.take (i + 1)).sum, t.com⟩) := by
  intro l
  induction l with
  | nil => intro t rows h; injection h with h; subst h; exact ⟨[], .nil, rfl, fun _ i r h => by simp at h⟩
  | cons v l ih =>
    intro t rows h
    unfold vSubRows at h
    obtain ⟨t1, h1, h⟩ := bind_ok.mp h
    obtain ⟨o, _, h⟩ := bind_ok.mp h
    obtain ⟨rest, h3, h⟩ := bind_ok.mp h
    injection h with h; subst h
    obtain ⟨n, hn, rfl⟩ := wAddIn_worth h1
    obtain ⟨ns, i1, i2, i3⟩ := ih _ rest h3
    refine ⟨n :: ns, .cons hn i1, by simp [i2], ?_⟩
    intro hf i r hi
    have hd := hf.head
    cases i with
    | zero =>
      simp only [List.getElem?_cons_zero, Option.some.injEq] at hi
      subst hi
      simp [hd]
    | succ i =>
      rw [List.getElem?_cons_succ] at hi
      have := i3 (by dsimp only; rw [hd]; exact hf.tail) i r hi
      rw [this]
      dsimp only
      rw [hd, List.take_succ_cons, List.sum_cons, Int.add_assoc]

/-- **C149** (register with subaccounts): the postings listed are those of the account and the accounts shown below it between the
dates, and the total of a row is the sum of what the postings up to it are worth in the commodity of the account. -/
theorem C149_sub_register (conv : Com → Amount → Int → Except Fault Amount) (off : Int) (showClosed : Bool) (as : List WAcct) (ts : List WTxn)
    (hts : TxnsSorted ts) (k : Nat) (a : WAcct) (start stop : Int) (rows : List VSubRow)
    (h : viewRegisterWithSubAccounts conv off showClosed as ts k a start stop = .ok rows) :
    ∃ (shown : List VPost) (ns : List Int), shown.Pairwise (fun x y => x.txn.posted ≤ y.txn.posted) ∧
      shown.Perm ((a :: allChildren as (visible showClosed stop []) k a.fullName).flatMap
        (fun w => (acctPosts ts w.fullName).filter (fun v => decide (start ≤ v.txn.posted ∧ v.txn.posted ≤ stop)))) ∧
      List.Forall₂ (fun (v : VPost) n => WorthAt conv a.com v.txn.posted v.post.quantity n) shown ns ∧ rows.length = shown.length ∧
      (RunsFit 0 ns → ∀ (i : Nat) (r : VSubRow), rows[i]? = some r → r.total = ⟨(ns.take (i + 1)).sum, a.com⟩) := by
  unfold viewRegisterWithSubAccounts at h
  obtain ⟨ns, h1, h2, h3⟩ := vSubRows_worth conv off a _ ⟨0, a.com⟩ rows h
  refine ⟨_, ns, ?_, ?_, h1, h2, by simpa using h3⟩
  · unfold withAllChildPostings
    have := stableSort_sorted (fun x y : VPost => decide (x.txn.posted < y.txn.posted)) (intLt_strictWeak.comap (fun x : VPost => x.txn.posted))
      ((a :: allChildren as (visible showClosed stop []) k a.fullName).flatMap (fun w => trimToDateRange (acctPosts ts w.fullName) start stop))
    exact this.imp (fun h => by simpa using h)
  · unfold withAllChildPostings
    refine (stableSort_perm _ _).trans ?_
    have : (fun w : WAcct => trimToDateRange (acctPosts ts w.fullName) start stop) =
        (fun w : WAcct => (acctPosts ts w.fullName).filter (fun v => decide (start ≤ v.txn.posted ∧ v.txn.posted ≤ stop))) := by
      funext w
      exact trim_filter _ (acctPosts_sorted ts hts _) _ _
    rw [this]

/-! ## C149: balances -/

theorem addTotals_worth (conv : Com → Amount → Int → Except Fault Amount) (date : Int) : ∀ (l : List (List BalTotal)) (t t' : Amount),
    addTotals conv date t l = .ok t' →
    ∃ (bs : List BalTotal) (ns : List Int), List.Forall₂ (fun (x : List BalTotal) b => x.head? = some b) l bs ∧
      List.Forall₂ (fun (b : BalTotal) n => WorthAt conv t.com date b.total n) bs ns ∧ t'.com = t.com ∧ (RunsFit t.int ns → t'.int = t.int + ns.sum) := by
  intro l
  induction l with
  | nil => intro t t' h; injection h with h; subst h; exact ⟨[], [], .nil, .nil, rfl, by simp⟩
  | cons x l ih =>
    intro t t' h
    cases x with
    | nil => cases h
    | cons b x =>
      unfold addTotals at h
      obtain ⟨t1, h1, h⟩ := bind_ok.mp h
      obtain ⟨n, hn, rfl⟩ := wAddIn_worth h1
      obtain ⟨bs, ns, i1, i2, i3, i4⟩ := ih _ t' h
      refine ⟨b :: bs, n :: ns, .cons rfl i1, .cons hn i2, i3, ?_⟩
      intro hf
      have hd := hf.head
      rw [i4 (by dsimp only; rw [hd]; exact hf.tail)]
      dsimp only
      rw [hd, List.sum_cons, Int.add_assoc]

theorem allE_forall {α β : Type} {f : α → Except Fault β} : ∀ {l : List α} {r : List β}, allE f l = .ok r → List.Forall₂ (fun x y => f x = .ok y) l r := by
  intro l
  induction l with
  | nil => intro r h; injection h with h; subst h; exact .nil
  | cons x l ih =>
    intro r h
    unfold allE at h
    obtain ⟨y, hy, h⟩ := bind_ok.mp h
    obtain ⟨ys, hys, h⟩ := bind_ok.mp h
    injection h with h; subst h
    exact .cons hy (ih hys)

/-- A row of the table of balances adds up. -/
def RowAdds (conv : Com → Amount → Int → Except Fault Amount) (as : List WAcct) (skip : WAcct → Bool) (ts : List WTxn) (date : Int) (rows : List BalTotal)
    (b : BalTotal) : Prop :=
  b.balance = balanceAt ts b.account date ∧
  ∃ (cs : List BalTotal) (ns : List Int),
    List.Forall₂ (fun (w : WAcct) (c : BalTotal) => c ∈ rows ∧ c.account = w) ((kids as b.account.fullName).filter (fun w => !skip w)) cs ∧
    List.Forall₂ (fun (c : BalTotal) n => WorthAt conv b.balance.com date c.total n) cs ns ∧
    b.total.com = b.balance.com ∧ (RunsFit b.balance.int ns → b.total.int = b.balance.int + ns.sum)

/-- **C149** (balances): whatever commodities the accounts are in, the total of an account is its balance and what the totals of the
accounts directly below it are worth in the commodity of the balance at that date. -/
theorem C149_balances (conv : Com → Amount → Int → Except Fault Amount) (as : List WAcct) (skip : WAcct → Bool) (ts : List WTxn) (date : Int) :
    ∀ (k : Nat) (a : WAcct) (rows : List BalTotal), withAllChildBalances conv as skip ts date k a = .ok rows →
      (∃ b, rows.head? = some b ∧ b.account = a) ∧ ∀ b ∈ rows, RowAdds conv as skip ts date rows b := by
  intro k
  induction k with
  | zero => intro a rows h; cases h
  | succ k ih =>
    intro a rows h
    unfold withAllChildBalances at h
    obtain ⟨cs, h1, h⟩ := bind_ok.mp h
    obtain ⟨total, h2, h⟩ := bind_ok.mp h
    injection h with h; subst h
    refine ⟨⟨_, rfl, rfl⟩, ?_⟩
    have hall := allE_forall h1
    obtain ⟨bs, ns, e1, e2, e3, e4⟩ := addTotals_worth conv date cs _ total h2
    intro b hb
    rcases List.mem_cons.mp hb with rfl | hb
    · refine ⟨rfl, bs, ns, ?_, e2, e3, e4⟩
      have : ∀ (l : List WAcct) (cs : List (List BalTotal)) (bs : List BalTotal) (R : List BalTotal), (∀ x ∈ cs.flatten, x ∈ R) →
          List.Forall₂ (fun x y => withAllChildBalances conv as skip ts date k x = .ok y) l cs →
          List.Forall₂ (fun (x : List BalTotal) b => x.head? = some b) cs bs → List.Forall₂ (fun (w : WAcct) (c : BalTotal) => c ∈ R ∧ c.account = w) l bs := by
        intro l cs bs R hR hf
        induction hf generalizing bs with
        | nil => intro h; cases h; exact .nil
        | @cons w x l cs hw _ ih2 =>
          intro h
          cases h with
          | cons hx h' =>
            refine .cons ⟨?_, ?_⟩ (ih2 _ (fun y hy => hR y (by rw [List.flatten_cons]; exact List.mem_append_right _ hy)) h')
            · apply hR
              rw [List.flatten_cons]
              exact List.mem_append_left _ (List.mem_of_mem_head? hx)
            · obtain ⟨⟨b', hb', ha'⟩, _⟩ := ih w x hw
              rw [hx] at hb'
              injection hb' with hb'
              rw [hb']; exact ha'
      exact this _ cs bs _ (fun x hx => List.mem_cons_of_mem _ hx) hall e1
    · rw [List.mem_flatten] at hb
      obtain ⟨x, hx, hbx⟩ := hb
      have : ∃ w, withAllChildBalances conv as skip ts date k w = .ok x := by
        obtain ⟨w, _, hw⟩ := forall2_mem_right hall x hx
        exact ⟨w, hw⟩
      obtain ⟨w, hw⟩ := this
      obtain ⟨r1, cs', ns', r2, r3, r4, r5⟩ := (ih w x hw).2 b hbx
      refine ⟨r1, cs', ns', ?_, r3, r4, r5⟩
      exact r2.imp (fun w c hc => ⟨List.mem_cons_of_mem _ (List.mem_flatten.mpr ⟨x, hx, hc.1⟩), hc.2⟩)

/-! ## C149: aggregated registers -/

theorem addQuantities_worth (conv : Com → Amount → Int → Except Fault Amount) (date : Int) : ∀ (l : List VPost) (t t' : Amount),
    addQuantities conv date t l = .ok t' →
    ∃ ns, List.Forall₂ (fun (v : VPost) n => WorthAt conv t.com date v.post.quantity n) l ns ∧ t'.com = t.com ∧ (RunsFit t.int ns → t'.int = t.int + ns.sum) := by
  intro l
  induction l with
  | nil => intro t t' h; injection h with h; subst h; exact ⟨[], .nil, rfl, by simp⟩
  | cons v l ih =>
    intro t t' h
    unfold addQuantities at h
    obtain ⟨t1, h1, h⟩ := bind_ok.mp h
    obtain ⟨n, hn, rfl⟩ := wAddIn_worth h1
    obtain ⟨ns, i1, i2, i3⟩ := ih _ t' h
    refine ⟨n :: ns, .cons hn i1, i2, ?_⟩
    intro hf
    have hd := hf.head
    rw [i3 (by dsimp only; rw [hd]; exact hf.tail)]
    dsimp only
    rw [hd, List.sum_cons, Int.add_assoc]

/-- What the postings of a period are worth. -/
def PeriodWorth (conv : Com → Amount → Int → Except Fault Amount) (off : Int) (g : Aggregate) (posts : List VPost) (c : Com) (d : Int) (ns : List Int) : Prop :=
  List.Forall₂ (fun (v : VPost) n => WorthAt conv c (86400 * d) v.post.quantity n) (groupOf off g posts d) ns

theorem groupLoop_worth (conv : Com → Amount → Int → Except Fault Amount) (off : Int) (g : Aggregate) (posts : List VPost) (c : Com) :
    ∀ (ds : List Int) (t : Int) (b : Amount) (gs : List PGroup), groupLoop conv off g posts c ⟨t, c⟩ b ds = .ok gs →
    ∃ nss, List.Forall₂ (PeriodWorth conv off g posts c) ds nss ∧ gs.map (fun x => x.date) = ds ∧
      ((∀ ns ∈ nss, RunsFit 0 ns) → RunsFit t (nss.map List.sum) → ∀ (i : Nat) (x : PGroup) (ns : List Int), gs[i]? = some x → nss[i]? = some ns →
        x.sum = ⟨ns.sum, c⟩ ∧ x.total = ⟨t + ((nss.take (i + 1)).map List.sum).sum, c⟩) := by
  intro ds
  induction ds with
  | nil => intro t b gs h; injection h with h; subst h; exact ⟨[], .nil, rfl, fun _ _ i x ns h => by simp at h⟩
  | cons d ds ih =>
    intro t b gs h
    unfold groupLoop at h
    split at h
    · next he =>
      obtain ⟨rest, h1, h⟩ := bind_ok.mp h
      injection h with h; subst h
      obtain ⟨nss, i1, i2, i3⟩ := ih t b rest h1
      refine ⟨[] :: nss, .cons (by unfold PeriodWorth; rw [he]; exact .nil) i1, by simp [i2], ?_⟩
      intro hf1 hf2 i x ns hx hns
      cases i with
      | zero =>
        simp only [List.getElem?_cons_zero, Option.some.injEq] at hx hns
        subst hx; subst hns
        simp
      | succ i =>
        rw [List.getElem?_cons_succ] at hx hns
        have := i3 (fun ns hns => hf1 ns (List.mem_cons_of_mem _ hns)) (by simpa using hf2.tail) i x ns hx hns
        rw [List.take_succ_cons, List.map_cons, List.sum_cons]
        simpa using this
    · next v l he =>
      obtain ⟨s, h1, h⟩ := bind_ok.mp h
      obtain ⟨t1, h2, h⟩ := bind_ok.mp h
      obtain ⟨rest, h3, h⟩ := bind_ok.mp h
      injection h with h; subst h
      obtain ⟨ns0, q1, q2, q3⟩ := addQuantities_worth conv _ _ _ _ h1
      obtain ⟨n, hn, rfl⟩ := wAddIn_worth h2
      have hnn : n = s.int := by
        rcases hn with ⟨_, h⟩ | ⟨h, _⟩
        · exact h
        · exact absurd q2 h
      subst hnn
      obtain ⟨nss, i1, i2, i3⟩ := ih _ _ rest h3
      refine ⟨ns0 :: nss, .cons (by unfold PeriodWorth; rw [he]; exact q1) i1, by simp [i2], ?_⟩
      intro hf1 hf2 i x ns hx hns
      have hs : s.int = ns0.sum := by simpa using q3 (hf1 ns0 List.mem_cons_self)
      have hse : s = ⟨ns0.sum, c⟩ := by
        cases s
        simp only at hs q2
        rw [hs, q2]
      rw [List.map_cons] at hf2
      have hd := hf2.head
      rw [hs] at i3
      dsimp only at i3
      rw [hd] at i3
      cases i with
      | zero =>
        simp only [List.getElem?_cons_zero, Option.some.injEq] at hx hns
        subst hx; subst hns
        refine ⟨hse, ?_⟩
        dsimp only
        rw [hs, hd]
        simp
      | succ i =>
        rw [List.getElem?_cons_succ] at hx hns
        have := i3 (fun ns hns => hf1 ns (List.mem_cons_of_mem _ hns)) hf2.tail i x ns hx hns
        rw [List.take_succ_cons, List.map_cons, List.sum_cons, ← Int.add_assoc]
        exact this

/-- **C149** (aggregated register): whatever commodities the postings are in, the amount of a row is the sum of what the postings of the
period are worth in the commodity of the account at the start of the period, and the total is the sum of the amounts so far. -/
theorem C149_aggregated (conv : Com → Amount → Int → Except Fault Amount) (off : Int) (h1 : -86400 < off) (h2 : off < 86400) (g : Aggregate) (ts : List WTxn)
    (a : WAcct) (start stop : Int) (hp : ∀ v ∈ acctPosts ts a.fullName, YearOk v.day) (hr : RangeOk start stop) (ds : List Int) (hds : PeriodStarts g start stop ds)
    (rows : List (Str × Amount × Amount)) (h : viewRegisterAggregated conv off g true ts a start stop = .ok rows) :
    ∃ nss, List.Forall₂ (fun d ns => List.Forall₂ (fun (v : VPost) n => WorthAt conv a.com (86400 * d) v.post.quantity n)
        ((acctPosts ts a.fullName).filter (fun v => decide (g.red v.day = d))) ns) ds nss ∧
      ((∀ ns ∈ nss, RunsFit 0 ns) → RunsFit 0 (nss.map List.sum) → ∀ (i : Nat) (d : Int) (ns : List Int), ds[i]? = some d → nss[i]? = some ns →
        rows[i]? = some (dateToString off (86400 * d), ⟨ns.sum, a.com⟩, ⟨((nss.take (i + 1)).map List.sum).sum, a.com⟩)) := by
  unfold viewRegisterAggregated groupBy at h
  obtain ⟨gs, hg, h⟩ := bind_ok.mp h
  injection h with h; subst h
  rw [← hds.unique] at hg
  obtain ⟨nss, i1, i2, i3⟩ := groupLoop_worth conv off g _ a.com ds 0 _ gs hg
  refine ⟨nss, ?_, ?_⟩
  · have hok : ∀ d ∈ ds, DateOk d := fun d hd => hr d ((hds.2 d).mp hd).2.1 ((hds.2 d).mp hd).2.2
    clear i2 i3 hg hds
    induction i1 with
    | nil => exact .nil
    | @cons d ns ds nss hw _ ih =>
      refine .cons ?_ (ih (fun d hd => hok d (List.mem_cons_of_mem _ hd)))
      unfold PeriodWorth at hw
      rw [groupOf_filter h1 h2 g _ hp d (hok d List.mem_cons_self)] at hw
      exact hw
  · intro hf1 hf2 i d ns hd hns
    have hi : (gs.map (fun x => x.date))[i]? = some d := by rw [i2]; exact hd
    rw [List.getElem?_map] at hi
    cases hx : gs[i]? with
    | none => rw [hx] at hi; cases hi
    | some x =>
      rw [hx] at hi
      have hi : x.date = d := by simpa using hi
      obtain ⟨e1, e2⟩ := i3 hf1 hf2 i x ns hx hns
      rw [List.getElem?_map, hx]
      simp only [Option.map_some, balanceOrSum, if_true]
      rw [e1, e2, hi]
      simp

/-! ## C149: the columns of the register with subaccounts -/

theorem rowAt_worth (conv : Com → Amount → Int → Except Fault Amount) (i : Nat) (d : Int) : ∀ (cols : List AGroups) (s b : Amount) (r : Amount × Amount),
    rowAt conv i d s b cols = .ok r →
    ∃ (ys : List PGroup) (ns ms : List Int), List.Forall₂ (fun (x : AGroups) y => x.groups[i]? = some y ∧ y.date = d) cols ys ∧
      List.Forall₂ (fun (y : PGroup) n => WorthAt conv s.com (86400 * d) y.sum n) ys ns ∧
      List.Forall₂ (fun (y : PGroup) n => WorthAt conv b.com (86400 * d) y.balance n) ys ms ∧
      r.1.com = s.com ∧ r.2.com = b.com ∧ (RunsFit s.int ns → r.1.int = s.int + ns.sum) ∧ (RunsFit b.int ms → r.2.int = b.int + ms.sum) := by
  intro cols
  induction cols with
  | nil =>
    intro s b r h
    injection h with h; subst h
    exact ⟨[], [], [], .nil, .nil, .nil, rfl, rfl, by simp, by simp⟩
  | cons x cols ih =>
    intro s b r h
    unfold rowAt at h
    cases hx : x.groups[i]? with
    | none => rw [hx] at h; cases h
    | some y =>
      rw [hx] at h
      dsimp only at h
      by_cases hd : y.date = d
      · rw [if_neg (by simpa using hd)] at h
        obtain ⟨s1, h1, h⟩ := bind_ok.mp h
        obtain ⟨b1, h2, h⟩ := bind_ok.mp h
        obtain ⟨n, hn, rfl⟩ := wAddIn_worth h1
        obtain ⟨m, hm, rfl⟩ := wAddIn_worth h2
        obtain ⟨ys, ns, ms, i1, i2, i3, i4, i5, i6, i7⟩ := ih _ _ r h
        rw [hd] at hn hm
        refine ⟨y :: ys, n :: ns, m :: ms, .cons ⟨hx, hd⟩ i1, .cons hn i2, .cons hm i3, i4, i5, ?_, ?_⟩
        · intro hf
          have he := hf.head
          rw [i6 (by dsimp only; rw [he]; exact hf.tail)]
          dsimp only
          rw [he, List.sum_cons, Int.add_assoc]
        · intro hf
          have he := hf.head
          rw [i7 (by dsimp only; rw [he]; exact hf.tail)]
          dsimp only
          rw [he, List.sum_cons, Int.add_assoc]
      · rw [if_pos (by simpa using hd)] at h
        cases h

theorem columnCells_forall (i : Nat) (d : Int) {cols : List AGroups} {ys : List PGroup}
    (h : List.Forall₂ (fun (x : AGroups) y => x.groups[i]? = some y ∧ y.date = d) cols ys) : columnCells cols i = ys := by
  unfold columnCells
  induction h with
  | nil => rfl
  | cons hx _ ih => rw [List.filterMap_cons, hx.1, ih]

theorem subRegisterRows_worth (conv : Com → Amount → Int → Except Fault Amount) (off : Int) (c : Com) (flows : Bool) (cols : List AGroups) :
    ∀ (ds : List (Int × Nat)) (t : Amount) (rows : List GRow), subRegisterRows conv off c flows cols t ds = .ok rows →
      List.Forall₂ (fun (e : Int × Nat) (r : GRow) => r.date = dateToString off (86400 * e.1) ∧ r.cells = (columnCells cols e.2).map (balanceOrSum flows) ∧
        ∃ ns, List.Forall₂ (fun (x : Amount) n => WorthAt conv c (86400 * e.1) x n) r.cells ns ∧ r.total.com = c ∧ (RunsFit 0 ns → r.total.int = ns.sum)) ds rows := by
  intro ds
  induction ds with
  | nil => intro t rows h; injection h with h; subst h; exact .nil
  | cons e ds ih =>
    obtain ⟨d, i⟩ := e
    intro t rows h
    unfold subRegisterRows at h
    obtain ⟨row, h1, h⟩ := bind_ok.mp h
    obtain ⟨t1, h2, h⟩ := bind_ok.mp h
    obtain ⟨rest, h3, h⟩ := bind_ok.mp h
    injection h with h; subst h
    obtain ⟨ys, ns, ms, i1, i2, i3, i4, i5, i6, i7⟩ := rowAt_worth conv i d cols _ _ row h1
    have hcc := columnCells_forall i d i1
    have hcell : cols.filterMap (fun x : AGroups => (x.groups[i]?).map (balanceOrSum flows)) = (columnCells cols i).map (balanceOrSum flows) := by
      unfold columnCells
      rw [List.map_filterMap]
    refine .cons ⟨rfl, hcell, ?_⟩ (ih _ rest h3)
    show ∃ ns, List.Forall₂ _ (cols.filterMap _) ns ∧ _
    rw [hcell, hcc]
    cases flows with
    | true =>
      refine ⟨ns, ?_, i4, by simpa [balanceOrSum] using i6⟩
      rw [List.forall₂_map_left_iff]
      exact i2
    | false =>
      refine ⟨ms, ?_, i5, by simpa [balanceOrSum] using i7⟩
      rw [List.forall₂_map_left_iff]
      exact i3

/-- **C149** (aggregated register with subaccounts): the amount under Total is the sum of what the amounts of the columns are worth in
the commodity of the account at the start of the period, whatever commodities the columns are in. -/
theorem C149_columns (conv : Com → Amount → Int → Except Fault Amount) (off : Int) (g : Aggregate) (flows : Bool) (as : List WAcct) (keep : WAcct → Bool)
    (ts : List WTxn) (k : Nat) (a : WAcct) (start stop max : Int) (negated : Bool) (ds : List Int) (hds : PeriodStarts g start stop ds) (rows : List GRow)
    (h : viewRegisterAggregatedWithSubAccounts conv off g flows as keep ts k a start stop max negated = .ok rows) :
    rows.length = ds.length ∧ ∀ (i : Nat) (d : Int) (r : GRow), ds[i]? = some d → rows[i]? = some r → r.date = dateToString off (86400 * d) ∧
      ∃ ns, List.Forall₂ (fun (x : Amount) n => WorthAt conv a.com (86400 * d) x n) r.cells ns ∧ r.total.com = a.com ∧ (RunsFit 0 ns → r.total.int = ns.sum) := by
  unfold viewRegisterAggregatedWithSubAccounts at h
  obtain ⟨cols, _, h⟩ := bind_ok.mp h
  rw [← hds.unique] at h
  have hf := subRegisterRows_worth conv off a.com flows cols _ _ rows h
  refine ⟨by rw [← hf.length_eq]; simp, ?_⟩
  intro i d r hd hr
  have hz : ds.zipIdx[i]? = some (d, i) := by rw [List.getElem?_zipIdx, hd]; simp
  have := List.forall₂_iff_get.mp hf
  obtain ⟨hi, hz'⟩ := List.getElem?_eq_some_iff.mp hz
  obtain ⟨hj, hr'⟩ := List.getElem?_eq_some_iff.mp hr
  have h3 := this.2 i hi hj
  simp only [List.get_eq_getElem] at h3
  rw [hz', hr'] at h3
  exact ⟨h3.1, h3.2.2⟩

theorem addGroupsAt_worth (conv : Com → Amount → Int → Except Fault Amount) (i : Nat) : ∀ (l : List AGroups) (g g' : PGroup), addGroupsAt conv i g l = .ok g' →
    ∃ (ys : List PGroup) (ns ms : List Int), List.Forall₂ (fun (x : AGroups) y => x.groups[i]? = some y ∧ y.date = g.date) l ys ∧
      List.Forall₂ (fun (y : PGroup) n => WorthAt conv g.sum.com (86400 * g.date) y.sum n) ys ns ∧
      List.Forall₂ (fun (y : PGroup) n => WorthAt conv g.balance.com (86400 * g.date) y.balance n) ys ms ∧
      g'.date = g.date ∧ g'.postings = g.postings ++ ys.flatMap (fun y => y.postings) ∧
      g'.sum.com = g.sum.com ∧ g'.balance.com = g.balance.com ∧
      (RunsFit g.sum.int ns → g'.sum.int = g.sum.int + ns.sum) ∧ (RunsFit g.balance.int ms → g'.balance.int = g.balance.int + ms.sum) := by
  intro l
  induction l with
  | nil =>
    intro g g' h
    injection h with h; subst h
    exact ⟨[], [], [], .nil, .nil, .nil, rfl, by simp, rfl, rfl, by simp, by simp⟩
  | cons x l ih =>
    intro g g' h
    unfold addGroupsAt at h
    cases hx : x.groups[i]? with
    | none => rw [hx] at h; cases h
    | some y =>
      rw [hx] at h
      dsimp only at h
      obtain ⟨g1, h1, h⟩ := bind_ok.mp h
      unfold addGroup at h1
      by_cases hd : g.date = y.date
      · rw [if_neg (by simpa using hd)] at h1
        obtain ⟨s, hs, h1⟩ := bind_ok.mp h1
        obtain ⟨t, _, h1⟩ := bind_ok.mp h1
        obtain ⟨b, hb, h1⟩ := bind_ok.mp h1
        injection h1 with h1; subst h1
        obtain ⟨n, hn, rfl⟩ := wAddIn_worth hs
        obtain ⟨m, hm, rfl⟩ := wAddIn_worth hb
        obtain ⟨ys, ns, ms, i1, i2, i3, i4, i5, i6, i7, i8, i9⟩ := ih _ g' h
        refine ⟨y :: ys, n :: ns, m :: ms, .cons ⟨hx, hd.symm⟩ i1, .cons hn i2, .cons hm i3, i4, by simp [i5], i6, i7, ?_, ?_⟩
        · intro hf
          have he := hf.head
          rw [i8 (by dsimp only; rw [he]; exact hf.tail)]
          dsimp only
          rw [he, List.sum_cons, Int.add_assoc]
        · intro hf
          have he := hf.head
          rw [i9 (by dsimp only; rw [he]; exact hf.tail)]
          dsimp only
          rw [he, List.sum_cons, Int.add_assoc]
      · rw [if_pos (by simpa using hd)] at h1
        cases h1

/-- **C149** (the column Other): the amounts of the column are sums of what those of the accounts left out are worth in the commodity of
the account. -/
theorem C149_other (conv : Com → Amount → Int → Except Fault Amount) (c : Com) (l : List AGroups) (o : AGroups) (h : sumAll conv c l = .ok o) (i : Nat)
    (y : PGroup) (hy : o.groups[i]? = some y) :
    ∃ ns ms, List.Forall₂ (fun (x : AGroups) n => ∃ z, x.groups[i]? = some z ∧ z.date = y.date ∧ WorthAt conv c (86400 * y.date) z.sum n) l ns ∧
      List.Forall₂ (fun (x : AGroups) n => ∃ z, x.groups[i]? = some z ∧ z.date = y.date ∧ WorthAt conv c (86400 * y.date) z.balance n) l ms ∧
      y.postings = (columnCells l i).flatMap (fun z => z.postings) ∧
      y.sum.com = c ∧ y.balance.com = c ∧ (RunsFit 0 ns → y.sum.int = ns.sum) ∧ (RunsFit 0 ms → y.balance.int = ms.sum) := by
  unfold sumAll at h
  cases l with
  | nil => cases h
  | cons x0 l0 =>
    dsimp only at h
    generalize x0 :: l0 = l at h ⊢
    obtain ⟨gs, hg, h⟩ := bind_ok.mp h
    injection h with h; subst h
    have hall := allE_forall hg
    have hfg := List.forall₂_iff_get.mp hall
    obtain ⟨hj, hy'⟩ := List.getElem?_eq_some_iff.mp hy
    have hi : i < x0.groups.zipIdx.length := by rw [hall.length_eq]; exact hj
    have h3 := hfg.2 i hi hj
    simp only [List.get_eq_getElem] at h3
    rw [hy', List.getElem_zipIdx] at h3
    dsimp only at h3
    rw [Nat.zero_add] at h3
    obtain ⟨ys, ns, ms, i1, i2, i3, i4, i5, i6, i7, i8, i9⟩ := addGroupsAt_worth conv i l _ y h3
    dsimp only at i1 i2 i3 i4 i5 i6 i7 i8 i9
    rw [← i4] at i1 i2 i3
    have join : ∀ (l : List AGroups) (ys : List PGroup) (ns : List Int) (P : PGroup → Int → Prop),
        List.Forall₂ (fun (x : AGroups) z => x.groups[i]? = some z ∧ z.date = y.date) l ys → List.Forall₂ P ys ns →
        List.Forall₂ (fun (x : AGroups) n => ∃ z, x.groups[i]? = some z ∧ z.date = y.date ∧ P z n) l ns := by
      intro l ys ns P h1
      induction h1 generalizing ns with
      | nil => intro h; cases h; exact .nil
      | cons hx _ ih =>
        intro h
        cases h with
        | cons hp h' => exact .cons ⟨_, hx.1, hx.2, hp⟩ (ih _ h')
    refine ⟨ns, ms, join _ _ _ _ i1 i2, join _ _ _ _ i1 i3, ?_, i6, i7, by simpa using i8, by simpa using i9⟩
    rw [columnCells_forall i y.date i1]
    simpa using i5

/-! ## The page's own conversion -/

/-- The conversion of a page loaded with the prices `all`. What was converted before does not matter (`C114_convert_history`). -/
def pageConv (all : List WPrice) : Com → Amount → Int → Except Fault Amount := fun c a d =>
  (wConvert (wPricesOf all) (directMap all) (2 * (c :: allComs all).length + 100) c a d).map (fun r => r.1)

/-- **C149** (what an amount is worth): if there are prices of its commodity in the wanted one, it is the amount times one of these prices,
rounded half up to the smallest unit. -/
theorem C149_worth (all : List WPrice) (c : Com) (x : Amount) (date n : Int) (hl : PriceLink all x.com c) (hne : x.com ≠ c)
    (h : WorthAt (pageConv all) c date x n) :
    ∃ p ∈ all, p.com = x.com ∧ p.value.com = c ∧ convPrice (wPricesOf all x.com c) date = .ok p ∧
      ((x.int * p.value.int).natAbs < 2 ^ 53 → RoundedHalfUp (x.int * p.value.int) x.com.decimals n) := by
  obtain ⟨p0, hp0, h1, h2⟩ := hl
  obtain ⟨p, hp, hpc⟩ := C113_total (wPricesOf all x.com c) (pricesOf_sorted all _ _)
    (List.ne_nil_of_mem ((pricesOf_mem all _ _ p0).mpr ⟨hp0, h1, h2⟩)) date
  obtain ⟨q1, q2, q3⟩ := (pricesOf_mem all _ _ p).mp hp
  refine ⟨p, q1, q2, q3, hpc, ?_⟩
  intro hs
  rcases h with ⟨h, _⟩ | ⟨_, y, hy, rfl⟩
  · exact absurd h hne
  unfold pageConv at hy
  obtain ⟨r, hr, hy⟩ : ∃ r, wConvert (wPricesOf all) (directMap all) (2 * (c :: allComs all).length + 100) c x date = .ok r ∧ r.1 = y := by
    cases hw : wConvert (wPricesOf all) (directMap all) (2 * (c :: allComs all).length + 100) c x date with
    | error e => rw [hw] at hy; cases hy
    | ok r => rw [hw] at hy; injection hy with hy; exact ⟨r, rfl, hy⟩
  subst hy
  unfold wConvert at hr
  rw [if_neg hne] at hr
  by_cases h0 : x.int = 0
  · rw [if_pos h0] at hr
    injection hr with hr
    subst hr
    rw [h0]
    unfold RoundedHalfUp
    simp only [Int.zero_mul, Int.mul_zero]
    constructor
    · have : (0 : Int) < 10 ^ x.com.decimals := by positivity
      omega
    · have : (0 : Int) < 10 ^ x.com.decimals := by positivity
      omega
  rw [if_neg h0] at hr
  have hcov : Covers (c :: allComs all) all :=
    fun p hp => ⟨List.mem_cons_of_mem _ (allComs_covers all p hp).1, List.mem_cons_of_mem _ (allComs_covers all p hp).2⟩
  have hmem : x.com ∈ c :: allComs all := by
    rw [← h1]; exact (hcov p0 hp0).1
  obtain ⟨o, m2, e1, _, e2, e3⟩ := find_spec (dst := c) (reached_state (.fresh (all := all))) hcov hmem
    (fuel := 2 * (c :: allComs all).length + 100) (by omega)
  rw [e1] at hr
  obtain ⟨w, hw, hr⟩ := bind_ok.mp hr
  injection hw with hw
  subst hw
  cases o with
  | none => cases hr
  | some cv =>
    obtain ⟨v, hv, hr⟩ := bind_ok.mp hr
    injection hr with hr
    subst hr
    obtain ⟨g1, g2, _, g4⟩ := e2
    have hst := g4 0 (.step .start ⟨p0, hp0, h1, h2⟩)
    cases cv with
    | comp c1 c2 =>
      have := steps_pos c1
      have := steps_pos c2
      simp only [WConv.steps] at hst
      omega
    | direct s t =>
      simp only [WConv.src, WConv.dst] at g1 g2
      subst g1; subst g2
      unfold WConv.value at hv
      rw [hpc] at hv
      injection hv with hv
      subst hv
      exact (C112_convert x p.value hs).2

/-! ## A concrete page with two commodities -/

def pageCad : Com := ⟨0, str "CAD", 2⟩
def pageUsd : Com := ⟨0, str "USD", 2⟩

/-- One price, both ways. -/
def pagePrices : List WPrice := [⟨pageUsd, 86400 * 735600, ⟨130, pageCad⟩⟩, ⟨pageCad, 86400 * 735600, ⟨77, pageUsd⟩⟩]

/-- 10.00 USD and 5.00 CAD are put into an account kept in CAD. -/
def pageTwo : List WTxn :=
  [⟨86400 * 735600, str "gift", [], [], [],
     [⟨str "Assets:Cash", ⟨1000, pageUsd⟩, ⟨1300, pageCad⟩, false, [], []⟩, ⟨str "Income", ⟨-1000, pageUsd⟩, ⟨-1000, pageUsd⟩, false, [], []⟩]⟩,
   ⟨86400 * 735601, str "pay", [], [], [],
     [⟨str "Assets:Cash", ⟨500, pageCad⟩, ⟨1800, pageCad⟩, false, [], []⟩, ⟨str "Income", ⟨-500, pageCad⟩, ⟨-500, pageCad⟩, false, [], []⟩]⟩]

def pageCash : WAcct := ⟨str "Cash", str "Assets:Cash", pageCad, some (str "Assets"), none⟩

/-- The assets are kept in USD, the cash below it in CAD. -/
def pageTwoAccts : List WAcct := [⟨str "Assets", str "Assets", pageUsd, none, none⟩, pageCash]

/-! The register of the account: 13.00 CAD, then 18.00 CAD. -/
example : (viewRegisterFull (pageConv pagePrices) 0 pageTwo pageCash (86400 * 735599) (86400 * 735700)).toOption.map (fun rows => rows.map (fun r => r.total)) =
    some [⟨1300, pageCad⟩, ⟨1800, pageCad⟩] := by decide +kernel

/-! The months: 18.00 CAD in January of 2015. -/
example : (viewRegisterAggregated (pageConv pagePrices) 0 .yearly true pageTwo pageCash (86400 * goDate 2014 1 1) (86400 * goDate 2016 2 1)).toOption.map
    (fun rows => rows.map (fun r => r.2)) =
    some [(⟨0, pageCad⟩, ⟨0, pageCad⟩), (⟨1800, pageCad⟩, ⟨1800, pageCad⟩), (⟨0, pageCad⟩, ⟨1800, pageCad⟩)] := by decide +kernel

/-! The balances: 18.00 CAD are 13.86 USD. -/
example : (withAllChildBalances (pageConv pagePrices) pageTwoAccts (fun _ => false) pageTwo (86400 * 735700) 5 ⟨str "Assets", str "Assets", pageUsd, none, none⟩).toOption.map
    (fun rows => rows.map (fun r => (r.balance, r.total))) =
    some [(⟨0, pageUsd⟩, ⟨1386, pageUsd⟩), (⟨1800, pageCad⟩, ⟨1800, pageCad⟩)] := by decide +kernel

/-! The columns of the register with subaccounts: 18.00 CAD in one column, 13.86 USD in total. -/
example : (viewRegisterAggregatedWithSubAccounts (pageConv pagePrices) 0 .yearly true pageTwoAccts (fun _ => true) pageTwo 5
      ⟨str "Assets", str "Assets", pageUsd, none, none⟩ (86400 * goDate 2015 1 1) (86400 * goDate 2015 12 1) 5 false).toOption.map
    (fun rows => rows.map (fun r => (r.cells, r.total))) = some [([⟨1800, pageCad⟩], ⟨1386, pageUsd⟩)] := by decide +kernel

/-! The hypotheses of `C149_worth` are met. -/
example : PriceLink pagePrices pageUsd pageCad ∧ WorthAt (pageConv pagePrices) pageCad (86400 * 735600) ⟨1000, pageUsd⟩ 1300 ∧
    TxnsSorted pageTwo ∧ RunsFit 0 [1300, 500] := by
  refine ⟨⟨⟨pageUsd, 86400 * 735600, ⟨130, pageCad⟩⟩, by simp [pagePrices], rfl, rfl⟩, .inr ⟨by decide, ⟨1300, pageCad⟩, ok_of_toOption (by decide +kernel), rfl⟩, ?_, ?_⟩
  · unfold TxnsSorted; decide
  · intro k
    match k with
    | 0 => decide
    | 1 => decide
    | k + 2 => simp

end Verif
