import Verif.Model.Chart
import Verif.Props.ViewTree
/-
C184, C185: the balances chart of the page: which boxes it draws, and what decides their size.
-/
namespace Verif

/-- The part of a balance a box gets for the account itself: the balance in the direction that is normal for the account, at least 0. -/
def ownPart (negated : Bool) (n : Int) : Int := max (if negated then -n else n) 0

/-- The value of a box: the parts of the account and of all accounts listed below it. -/
def partSum (negated : Bool) (bal : WAcct → Int) (sub : List WAcct) : Int := (sub.map (fun v => ownPart negated (bal v))).sum

theorem chartOwn_eq (conv : Com → Amount → Int → Except Fault Amount) (a : WAcct) (negated : Bool) (date : Int) (r : BalTotal) (h : r.balance.com = a.com) :
    chartOwn conv a negated date r = .ok ⟨r, ownPart negated r.balance.int⟩ := by
  unfold chartOwn convTo
  rw [if_pos h]
  show Except.ok _ = Except.ok _
  unfold ownPart
  congr 2
  generalize (if negated then -r.balance.int else r.balance.int) = x
  by_cases hx : x > 0
  · rw [if_pos hx]; omega
  · rw [if_neg hx]; omega

/-- Everything the theorems need to know about the nodes. -/
structure ChartNodes (as : List WAcct) (keep : WAcct → Bool) (a : WAcct) (nodes : List ChartNode) : Prop where
  tree : WTree as
  top : a ∈ as
  mem : ∀ w, w ∈ nodes.map (fun n => n.row.account) ↔ w = a ∨ Down as keep a.fullName w
  nodup : (nodes.map (fun n => n.row.account)).Nodup

theorem ChartNodes.inAs {as : List WAcct} {keep : WAcct → Bool} {a : WAcct} {nodes : List ChartNode} (h : ChartNodes as keep a nodes) {n : ChartNode}
    (hn : n ∈ nodes) : n.row.account ∈ as := by
  rcases (h.mem _).mp (List.mem_map_of_mem (f := fun n : ChartNode => n.row.account) hn) with e | hd
  · rw [e]; exact h.top
  · exact hd.mem

theorem ChartNodes.inj {as : List WAcct} {keep : WAcct → Bool} {a : WAcct} {nodes : List ChartNode} (h : ChartNodes as keep a nodes) {m n : ChartNode}
    (hm : m ∈ nodes) (hn : n ∈ nodes) (e : m.row.account.fullName = n.row.account.fullName) : m = n :=
  (List.nodup_map_iff_inj_on h.nodup.of_map).mp h.nodup m hm n hn (h.tree.eq_of_name (h.inAs hm) (h.inAs hn) e)

theorem chartParent_top {as : List WAcct} (a : WAcct) : chartParent a a = none := by
  unfold chartParent
  cases a.parent with
  | none => rfl
  | some p => exact if_pos rfl

theorem chartParent_down {as : List WAcct} {keep : WAcct → Bool} {a : WAcct} (ht : WTree as) (ha : a ∈ as) {w : WAcct} (h : Down as keep a.fullName w) :
    chartParent a w = w.parent := by
  obtain ⟨p, hp, hl⟩ : ∃ p, w.parent = some p ∧ a.fullName.length ≤ p.length := by
    cases h with
    | child _ hp _ => exact ⟨_, hp, Nat.le_refl _⟩
    | step hd _ hp _ => exact ⟨_, hp, Nat.le_of_lt (hd.longer ht)⟩
  unfold chartParent
  rw [hp]
  refine if_neg fun e => ?_
  have := ht.shorter ha e.symm
  omega

/-- A parent that is not `none` is the account of one of the nodes. -/
theorem ChartNodes.parent {as : List WAcct} {keep : WAcct → Bool} {a : WAcct} {nodes : List ChartNode} (h : ChartNodes as keep a nodes) {n : ChartNode}
    (hn : n ∈ nodes) {p : Str} (hp : chartParent a n.row.account = some p) : ∃ m ∈ nodes, m.row.account.fullName = p := by
  rcases (h.mem _).mp (List.mem_map_of_mem (f := fun n : ChartNode => n.row.account) hn) with e | hd
  · rw [e, chartParent_top (as := as)] at hp; cases hp
  · rw [chartParent_down h.tree h.top hd] at hp
    have : ∃ v, (v = a ∨ Down as keep a.fullName v) ∧ v.fullName = p := by
      cases hd with
      | child _ hq _ => rw [hq] at hp; injection hp with e; exact ⟨a, Or.inl rfl, e⟩
      | step hd _ hq _ => rw [hq] at hp; injection hp with e; exact ⟨_, Or.inr hd, e⟩
    obtain ⟨v, hv, e⟩ := this
    obtain ⟨m, hm, rfl⟩ := List.mem_map.mp ((h.mem v).mpr hv)
    exact ⟨m, hm, e⟩

theorem filter_one {α : Type} (q : α → Bool) (m : α) : ∀ l : List α, l.Nodup → m ∈ l → q m = true → (∀ x ∈ l, q x = true → x = m) → (l.filter q).length = 1 := by
  intro l hn hm hq h
  have : l.filter q = [m] := by
    have hn' : (l.filter q).Nodup := hn.filter _
    have hall : ∀ x ∈ l.filter q, x = m := fun x hx => h x (List.mem_filter.mp hx).1 (List.mem_filter.mp hx).2
    have hin : m ∈ l.filter q := List.mem_filter.mpr ⟨hm, hq⟩
    generalize l.filter q = r at hn' hall hin
    cases r with
    | nil => cases hin
    | cons x r =>
      have e := hall x (by simp)
      subst e
      cases r with
      | nil => rfl
      | cons y r =>
        have e := hall y (by simp)
        subst e
        simp at hn'
  rw [this]; rfl

theorem ChartNodes.check {as : List WAcct} {keep : WAcct → Bool} {a : WAcct} {nodes : List ChartNode} (h : ChartNodes as keep a nodes) :
    stratifyCheck a nodes = .ok () := by
  have hnn : nodes.Nodup := h.nodup.of_map
  obtain ⟨t, ht, e⟩ := List.mem_map.mp ((h.mem a).mpr (Or.inl rfl))
  unfold stratifyCheck
  rw [if_pos, if_pos]
  · apply filter_one _ t nodes hnn ht
    · rw [decide_eq_true_eq, e]; exact chartParent_top (as := as) a
    · intro x hx hp
      rw [decide_eq_true_eq] at hp
      rcases (h.mem _).mp (List.mem_map_of_mem (f := fun n : ChartNode => n.row.account) hx) with e' | hd
      · exact h.inj hx ht (by rw [e', e])
      · rw [chartParent_down h.tree h.top hd] at hp
        cases hd with
        | child _ hq _ => rw [hq] at hp; cases hp
        | step _ _ hq _ => rw [hq] at hp; cases hp
  · rw [List.all_eq_true]
    intro n hn
    cases hp : chartParent a n.row.account with
    | none => rfl
    | some p =>
      obtain ⟨m, hm, e⟩ := h.parent hn hp
      show decide _ = true
      rw [decide_eq_true_eq]
      apply filter_one _ m nodes hnn hm
      · rw [decide_eq_true_eq]; exact e
      · intro x hx hq
        rw [decide_eq_true_eq] at hq
        exact h.inj hx hm (hq.trans e.symm)

theorem ChartNodes.find {as : List WAcct} {keep : WAcct → Bool} {a : WAcct} {nodes : List ChartNode} (h : ChartNodes as keep a nodes) {m : ChartNode}
    (hm : m ∈ nodes) : nodes.find? (fun x => decide (x.row.account.fullName = m.row.account.fullName)) = some m := by
  cases hf : nodes.find? (fun x => decide (x.row.account.fullName = m.row.account.fullName)) with
  | none => have := List.find?_eq_none.mp hf m hm; simp at this
  | some x =>
    have h1 := List.mem_of_find?_eq_some hf
    have h2 := List.find?_some hf
    rw [decide_eq_true_eq] at h2
    rw [h.inj h1 hm h2]

theorem ChartNodes.depth {as : List WAcct} {keep : WAcct → Bool} {a : WAcct} {nodes : List ChartNode} (h : ChartNodes as keep a nodes) : ∀ (k : Nat) (n : ChartNode),
    n ∈ nodes → n.row.account.fullName.length < k → ∃ d, chartDepth a nodes k n.row.account = .ok d ∧ Level as a.fullName d n.row.account := by
  intro k
  induction k with
  | zero => intro n _ hl; omega
  | succ k ih =>
    intro n hn hl
    unfold chartDepth
    cases hp : chartParent a n.row.account with
    | none =>
      refine ⟨0, rfl, .here (h.inAs hn) ?_⟩
      rcases (h.mem _).mp (List.mem_map_of_mem (f := fun n : ChartNode => n.row.account) hn) with e | hd
      · rw [e]
      · rw [chartParent_down h.tree h.top hd] at hp
        cases hd with
        | child _ hq _ => rw [hq] at hp; cases hp
        | step _ _ hq _ => rw [hq] at hp; cases hp
    | some p =>
      obtain ⟨m, hm, e⟩ := h.parent hn hp
      have hq : n.row.account.parent = some p := by
        unfold chartParent at hp
        cases hw : n.row.account.parent with
        | none => rw [hw] at hp; cases hp
        | some q =>
          rw [hw] at hp
          dsimp only at hp
          split at hp
          · cases hp
          · exact hp
      have hlt := h.tree.shorter (h.inAs hn) hq
      obtain ⟨d, hd, hlev⟩ := ih m hm (by rw [e]; omega)
      refine ⟨d + 1, ?_, .under hlev (h.inAs hn) (by rw [hq, e])⟩
      dsimp only
      rw [← e, h.find hm]
      dsimp only
      rw [hd]
      rfl

/-- An account is on one level only. -/
theorem Level.unique {as : List WAcct} (ht : WTree as) {a : Str} : ∀ {m : Nat} {w : WAcct}, Level as a m w → ∀ {n : Nat}, Level as a n w → m = n := by
  intro m w h
  induction h with
  | here hw e =>
    intro n h'
    cases h' with
    | here _ _ => rfl
    | under hd hw' hp =>
      have := hd.long ht
      have := ht.shorter hw' hp
      rw [e] at this
      omega
  | under hd hw hp ih =>
    intro n h'
    cases h' with
    | here _ e =>
      have := hd.long ht
      have := ht.shorter hw hp
      rw [e] at this
      omega
    | under hd' _ hp' =>
      rw [hp] at hp'
      injection hp' with e
      have e := ht.eq_of_name hd.mem hd'.mem e
      subst e
      rw [ih hd']

/-- The nodes below a node: its children that are kept. -/
theorem ChartNodes.children {as : List WAcct} {keep : WAcct → Bool} {a : WAcct} {nodes : List ChartNode} (h : ChartNodes as keep a nodes) {n : ChartNode}
    (hn : n ∈ nodes) :
    ((nodes.filter (fun m => decide (chartParent a m.row.account = some n.row.account.fullName))).map (fun m => m.row.account)).Perm
      ((kids as n.row.account.fullName).filter keep) := by
  apply (List.perm_ext_iff_of_nodup ?_ ?_).mpr
  · intro w
    rw [List.mem_map, List.mem_filter, mem_kids]
    have hbelow : n.row.account = a ∨ Down as keep a.fullName n.row.account :=
      (h.mem _).mp (List.mem_map_of_mem (f := fun n : ChartNode => n.row.account) hn)
    constructor
    · rintro ⟨m, hm, rfl⟩
      obtain ⟨hm, hp⟩ := List.mem_filter.mp hm
      rw [decide_eq_true_eq] at hp
      rcases (h.mem _).mp (List.mem_map_of_mem (f := fun n : ChartNode => n.row.account) hm) with e | hd
      · rw [e, chartParent_top (as := as)] at hp; cases hp
      · rw [chartParent_down h.tree h.top hd] at hp
        exact ⟨⟨hd.mem, hp⟩, hd.kept⟩
    · rintro ⟨⟨hw, hp⟩, hk⟩
      have hd : Down as keep a.fullName w := by
        rcases hbelow with e | hd
        · rw [e] at hp; exact .child hw hp hk
        · exact .step hd hw hp hk
      obtain ⟨m, hm, rfl⟩ := List.mem_map.mp ((h.mem w).mpr (Or.inr hd))
      refine ⟨m, List.mem_filter.mpr ⟨hm, ?_⟩, rfl⟩
      rw [decide_eq_true_eq, chartParent_down h.tree h.top hd]
      exact hp
  · exact (List.filter_sublist.map _).nodup h.nodup
  · exact (h.tree.nodup.of_map.filter _).filter _

theorem subtreeSum_split {as : List WAcct} (keep : WAcct → Bool) (ht : WTree as) (bal : WAcct → Int) (K : Nat) (hK : ∀ w ∈ as, w.fullName.length ≤ K) (a : WAcct) :
    subtreeSum bal as keep K a = bal a + (((kids as a.fullName).filter keep).map (subtreeSum bal as keep K)).sum := by
  have hsplit : allChildren as keep K a.fullName =
      ((kids as a.fullName).filter keep).flatMap (fun w => w :: allChildren as keep K w.fullName) := by
    have h1 := allChildren_fuel keep ht K a.fullName (fun w hw => by have := hK w hw; omega) 1
    rw [← h1]
    conv_lhs => unfold allChildren
    exact flatMap_filter_if keep _ _
  unfold subtreeSum
  conv_lhs => rw [hsplit]
  rw [List.map_cons, List.sum_cons, sum_int_flatMap]

theorem ChartNodes.value {as : List WAcct} {keep : WAcct → Bool} {a : WAcct} {nodes : List ChartNode} (h : ChartNodes as keep a nodes) (own : WAcct → Int)
    (ho : ∀ n ∈ nodes, n.own = own n.row.account) (K : Nat) (hK : ∀ w ∈ as, w.fullName.length ≤ K) : ∀ (k : Nat) (n : ChartNode), n ∈ nodes →
    (∀ w ∈ as, w.fullName.length < n.row.account.fullName.length + k) → chartValue a nodes k n = subtreeSum own as keep K n.row.account := by
  intro k
  induction k with
  | zero =>
    intro n hn hk
    have := hk _ (h.inAs hn)
    omega
  | succ k ih =>
    intro n hn hk
    rw [subtreeSum_split keep h.tree own K hK, ← ((h.children hn).map (subtreeSum own as keep K)).sum_eq, List.map_map]
    unfold chartValue
    rw [ho n hn]
    congr 2
    apply List.map_congr_left
    intro m hm
    obtain ⟨hm, hp⟩ := List.mem_filter.mp hm
    rw [decide_eq_true_eq] at hp
    have hq : m.row.account.parent = some n.row.account.fullName := by
      rcases (h.mem _).mp (List.mem_map_of_mem (f := fun n : ChartNode => n.row.account) hm) with e | hd
      · rw [e, chartParent_top (as := as)] at hp; cases hp
      · rwa [chartParent_down h.tree h.top hd] at hp
    have := h.tree.shorter (h.inAs hm) hq
    exact ih m hm (fun w hw => by have := hk w hw; omega)

/-- **C184, C185** The chart is always drawn. Its boxes are those of the account and of the accounts less than `levels` levels below it
that are not closed (unless closed accounts are shown), each once; a box tells the account's total, over all accounts below it also the
deeper ones, and its balance if it is not zero and the account has subaccounts; its value is the sum, over the same accounts, of the
balances that are in the normal direction. (Balances of the commodity of the account, that together stay within 2^53 units.) -/
theorem chart_boxes (conv : Com → Amount → Int → Except Fault Amount) (negated showClosed : Bool) (as : List WAcct) (ht : WTree as) (ts : List WTxn) (stop : Int)
    (levels : Nat) (a : WAcct) (ha : a ∈ as) (k : Nat) (hk : ∀ w ∈ as, w.fullName.length < k) (keep : WAcct → Bool)
    (hkeep : keep = fun w => showClosed || !wIsClosed as stop k w)
    (hc : ∀ w, w = a ∨ Down as keep a.fullName w → (balanceAt ts w stop).com = a.com)
    (hb : (as.map (fun w => (balanceAt ts w stop).int.natAbs)).sum ≤ 2 ^ 53) :
    ∃ boxes : List ChartBox, balancesChart conv negated showClosed as ts stop levels k a = .ok boxes ∧
      (boxes.map (fun b => b.account)).Nodup ∧
      (∀ w n, (∃ b ∈ boxes, b.account = w ∧ b.depth = n) ↔ (w = a ∨ Down as keep a.fullName w) ∧ Level as a.fullName n w ∧ n < levels) ∧
      ∀ b ∈ boxes, b.balance = (if (∃ v ∈ as, v.parent = some b.account.fullName) ∧ (balanceAt ts b.account stop).int ≠ 0 then
          some (balanceAt ts b.account stop) else none) ∧
        ∃ sub : List WAcct, sub.Nodup ∧ (∀ v, v ∈ sub ↔ v = b.account ∨ Down as keep b.account.fullName v) ∧
          b.total = ⟨(sub.map (fun w => (balanceAt ts w stop).int)).sum, a.com⟩ ∧
          b.value = partSum negated (fun w => (balanceAt ts w stop).int) sub := by
  have hsk : (fun w => !wSkip showClosed as stop [] k w) = keep := by
    rw [hkeep]; funext w; unfold wSkip; cases showClosed <;> cases wIsClosed as stop k w <;> simp
  obtain ⟨rows, h1, ⟨below, h2, h2'⟩, h3, h4⟩ := C124_totals conv as (wSkip showClosed as stop [] k) ht ts stop a.com a ha k hk
    (by rw [hsk]; exact hc) hb
  rw [hsk] at h2' h4
  have hrow : ∀ r ∈ rows, r.account = a ∨ Down as keep a.fullName r.account := by
    intro r hr
    have : r.account ∈ a :: below := by rw [← h2]; exact List.mem_map.mpr ⟨r, hr, rfl⟩
    rcases List.mem_cons.mp this with h | h
    · exact Or.inl h
    · exact Or.inr ((h2' _).mp h)
  set nodes : List ChartNode := rows.map (fun r => ⟨r, ownPart negated r.balance.int⟩) with hnodes
  have haccts : nodes.map (fun n => n.row.account) = rows.map (fun r => r.account) := by rw [hnodes, List.map_map]; rfl
  have hN : ChartNodes as keep a nodes := by
    refine ⟨ht, ha, ?_, ?_⟩
    · intro w
      rw [haccts, h2, List.mem_cons, h2']
    · rw [haccts]; exact h3
  have hown : ∀ n ∈ nodes, n.own = (fun w => ownPart negated (balanceAt ts w stop).int) n.row.account := by
    intro n hn
    obtain ⟨r, hr, rfl⟩ := List.mem_map.mp hn
    show ownPart negated r.balance.int = _
    rw [(h4 r hr).1]
  have hdepth : ∀ n ∈ nodes, ∃ d, chartDepth a nodes k n.row.account = .ok d ∧ Level as a.fullName d n.row.account :=
    fun n hn => hN.depth k n hn (hk _ (hN.inAs hn))
  let depthOf : ChartNode → Nat := fun n => (chartDepth a nodes k n.row.account).toOption.getD 0
  have hdepthOf : ∀ n ∈ nodes, chartDepth a nodes k n.row.account = .ok (depthOf n) ∧ Level as a.fullName (depthOf n) n.row.account := by
    intro n hn
    obtain ⟨d, e, hl⟩ := hdepth n hn
    have : depthOf n = d := by show ((chartDepth a nodes k n.row.account).toOption.getD 0) = d; rw [e]; rfl
    rw [this]; exact ⟨e, hl⟩
  let boxOf : ChartNode → ChartBox := fun n => ⟨n.row.account, n.row.total, chartText as n.row, depthOf n, chartValue a nodes k n⟩
  have hrun : balancesChart conv negated showClosed as ts stop levels k a = .ok ((nodes.map boxOf).filter (fun b => decide (b.depth < levels))) := by
    unfold balancesChart
    rw [h1]
    show (allE (chartOwn conv a negated stop) rows).bind _ = _
    rw [allE_ok _ (fun r => (⟨r, ownPart negated r.balance.int⟩ : ChartNode)) rows (fun r hr => chartOwn_eq conv a negated stop r (by
      rw [(h4 r hr).1]; exact hc _ (hrow r hr)))]
    show (stratifyCheck a nodes).bind _ = _
    rw [hN.check]
    show (allE _ nodes).bind _ = _
    rw [allE_ok _ boxOf nodes (fun n hn => by rw [(hdepthOf n hn).1]; rfl)]
    rfl
  refine ⟨_, hrun, ?_, ?_, ?_⟩
  · refine (List.filter_sublist.map _).nodup ?_
    rw [List.map_map]
    exact hN.nodup
  · intro w n
    constructor
    · rintro ⟨b, hb, rfl, rfl⟩
      obtain ⟨hb, hl⟩ := List.mem_filter.mp hb
      rw [decide_eq_true_eq] at hl
      obtain ⟨m, hm, rfl⟩ := List.mem_map.mp hb
      exact ⟨(hN.mem _).mp (List.mem_map_of_mem (f := fun n : ChartNode => n.row.account) hm), (hdepthOf m hm).2, hl⟩
    · rintro ⟨hw, hl, hlt⟩
      obtain ⟨m, hm, rfl⟩ := List.mem_map.mp ((hN.mem w).mpr hw)
      have e := Level.unique ht (hdepthOf m hm).2 hl
      refine ⟨boxOf m, List.mem_filter.mpr ⟨List.mem_map_of_mem hm, ?_⟩, rfl, e⟩
      rw [decide_eq_true_eq]
      show depthOf m < levels
      omega
  · intro b hb
    obtain ⟨m, hm, rfl⟩ := List.mem_map.mp (List.mem_filter.mp hb).1
    obtain ⟨r, hr, rfl⟩ := List.mem_map.mp hm
    obtain ⟨e1, _⟩ := h4 r hr
    obtain ⟨e1, sub, n1, n2, e2⟩ := h4 r hr
    refine ⟨?_, sub, n1, n2, e2, ?_⟩
    · show chartText as r = _
      unfold chartText
      have hiff : kids as r.account.fullName ≠ [] ↔ ∃ v ∈ as, v.parent = some r.account.fullName := by
        constructor
        · intro h
          obtain ⟨v, l, e⟩ := List.exists_cons_of_ne_nil h
          obtain ⟨h1, h2⟩ := mem_kids.mp (show v ∈ kids as r.account.fullName by rw [e]; simp)
          exact ⟨v, h1, h2⟩
        · rintro ⟨v, h1, h2⟩ e
          have := mem_kids.mpr ⟨h1, h2⟩
          rw [e] at this
          cases this
      rw [← e1]
      simp only [hiff]
      rfl
    · have hK : ∀ w ∈ as, w.fullName.length ≤ k := fun w hw => Nat.le_of_lt (hk w hw)
      show chartValue a nodes k _ = _
      rw [hN.value (fun w => ownPart negated (balanceAt ts w stop).int) hown k hK k _ hm (fun w hw => by have := hk w hw; omega)]
      show subtreeSum _ as keep k r.account = _
      unfold subtreeSum partSum
      apply List.Perm.sum_eq
      apply List.Perm.map
      obtain ⟨c1, c2, _⟩ := C123_children as keep ht k hK r.account.fullName
      apply (List.perm_ext_iff_of_nodup ?_ n1).mpr
      · intro v
        rw [List.mem_cons, c1, n2]
      · rw [List.nodup_cons]
        refine ⟨fun h => ?_, c2⟩
        have := ((c1 _).mp h).longer ht
        omega

/-- **C184**, full statement: chart and table of the balances of an account show the same accounts when the same depth is chosen. -/
def C184_Statement : Prop := ∀ (conv : Com → Amount → Int → Except Fault Amount) (negated showClosed : Bool) (as : List WAcct) (ts : List WTxn) (stop : Int)
    (depth k : Nat) (a : WAcct) (boxes : List ChartBox) (rows : List (Amount × Amount × Str)), WTree as → a ∈ as → (∀ w ∈ as, w.fullName.length < k) →
  balancesChart conv negated showClosed as ts stop depth k a = .ok boxes → viewBalances conv showClosed as ts stop depth k a = .ok rows →
  ∀ name, name ∈ rows.map (fun r => r.2.2) → ∃ b ∈ boxes, b.account.fullName = a.fullName ++ name

/-- **C185**, full statement: the area of a box is in proportion to the total it tells, as far as that is in the normal direction. -/
def C185_Statement : Prop := ∀ (conv : Com → Amount → Int → Except Fault Amount) (negated showClosed : Bool) (as : List WAcct) (ts : List WTxn) (stop : Int)
    (levels k : Nat) (a : WAcct) (boxes : List ChartBox), WTree as → a ∈ as → (∀ w ∈ as, w.fullName.length < k) →
  balancesChart conv negated showClosed as ts stop levels k a = .ok boxes →
  ∀ b ∈ boxes, 0 ≤ (if negated then -b.total.int else b.total.int) → b.value = (if negated then -b.total.int else b.total.int)

/-- **C184 (partial)** The chart is always drawn; it has one box for the account and for each account less than `levels` levels below it
that is not closed (unless closed accounts are shown). -/
theorem C184_boxes_partial (conv : Com → Amount → Int → Except Fault Amount) (negated showClosed : Bool) (as : List WAcct) (ht : WTree as) (ts : List WTxn)
    (stop : Int) (levels : Nat) (a : WAcct) (ha : a ∈ as) (k : Nat) (hk : ∀ w ∈ as, w.fullName.length < k) (keep : WAcct → Bool)
    (hkeep : keep = fun w => showClosed || !wIsClosed as stop k w)
    (hc : ∀ w, w = a ∨ Down as keep a.fullName w → (balanceAt ts w stop).com = a.com)
    (hb : (as.map (fun w => (balanceAt ts w stop).int.natAbs)).sum ≤ 2 ^ 53) :
    ∃ boxes : List ChartBox, balancesChart conv negated showClosed as ts stop levels k a = .ok boxes ∧
      (boxes.map (fun b => b.account)).Nodup ∧
      ∀ w n, (∃ b ∈ boxes, b.account = w ∧ b.depth = n) ↔ (w = a ∨ Down as keep a.fullName w) ∧ Level as a.fullName n w ∧ n < levels := by
  obtain ⟨boxes, h1, h2, h3, _⟩ := chart_boxes conv negated showClosed as ht ts stop levels a ha k hk keep hkeep hc hb
  exact ⟨boxes, h1, h2, h3⟩

/-- **C184 (partial)** The table shows the accounts of the chart of one level more, with the same totals. -/
theorem C184_one_level_more_partial (conv : Com → Amount → Int → Except Fault Amount) (negated showClosed : Bool) (as : List WAcct) (ht : WTree as) (ts : List WTxn)
    (stop : Int) (depth : Nat) (a : WAcct) (ha : a ∈ as) (k : Nat) (hk : ∀ w ∈ as, w.fullName.length < k) (keep : WAcct → Bool)
    (hkeep : keep = fun w => showClosed || !wIsClosed as stop k w)
    (hc : ∀ w, w = a ∨ Down as keep a.fullName w → (balanceAt ts w stop).com = a.com)
    (hb : (as.map (fun w => (balanceAt ts w stop).int.natAbs)).sum ≤ 2 ^ 53) :
    ∃ (boxes : List ChartBox) (rows : List (Amount × Amount × Str)),
      balancesChart conv negated showClosed as ts stop (depth + 1) k a = .ok boxes ∧
      viewBalances conv showClosed as ts stop depth k a = .ok rows ∧
      rows.Perm (boxes.map (fun b => (balanceAt ts b.account stop, b.total, b.account.fullName.drop a.fullName.length))) := by
  obtain ⟨boxes, h1, h2, h3, h4⟩ := chart_boxes conv negated showClosed as ht ts stop (depth + 1) a ha k hk keep hkeep hc hb
  obtain ⟨shown, t1, t2, total, t3, t4⟩ := C125_table conv showClosed as ht ts stop a.com depth a ha k hk keep hkeep hc hb
  refine ⟨boxes, _, h1, t3, ?_⟩
  have hp : shown.Perm (boxes.map (fun b => b.account)) := by
    apply (List.perm_ext_iff_of_nodup t1 h2).mpr
    intro w
    rw [t2, List.mem_map]
    constructor
    · intro h
      have : ∃ n, n < depth + 1 ∧ Level as a.fullName n w := by
        rcases h with rfl | ⟨_, n, hn, hl⟩
        · exact ⟨0, by omega, .here ha rfl⟩
        · exact ⟨n, by omega, hl⟩
      obtain ⟨n, hn, hl⟩ := this
      obtain ⟨b, hb, e, _⟩ := (h3 w n).mpr ⟨h.imp id (fun h => h.1), hl, hn⟩
      exact ⟨b, hb, e⟩
    · rintro ⟨b, hb, rfl⟩
      obtain ⟨h, hl, hn⟩ := (h3 b.account b.depth).mp ⟨b, hb, rfl, rfl⟩
      exact h.imp id (fun h => ⟨h, b.depth, by omega, hl⟩)
  refine (hp.map _).trans (List.Perm.of_eq ?_)
  rw [List.map_map]
  apply List.map_congr_left
  intro b hb
  obtain ⟨_, sub, n1, n2, e, _⟩ := h4 b hb
  obtain ⟨sub', m1, m2, e'⟩ := t4 b.account ((hp.mem_iff).mpr (List.mem_map_of_mem hb))
  have hs : sub'.Perm sub := (List.perm_ext_iff_of_nodup m1 n1).mpr (fun v => by rw [m2, n2])
  show (_, (⟨total b.account, a.com⟩ : Amount), _) = (_, b.total, _)
  rw [e, e', (hs.map _).sum_eq]

/-- **C185 (partial)** What a box tells and the value deciding its area: the total over the account and all accounts listed below it, and
the sum of those of their balances that are in the normal direction. So the value is the total exactly when none of the balances is in the
other direction, and more than the total otherwise. -/
theorem C185_value_partial (conv : Com → Amount → Int → Except Fault Amount) (negated showClosed : Bool) (as : List WAcct) (ht : WTree as) (ts : List WTxn)
    (stop : Int) (levels : Nat) (a : WAcct) (ha : a ∈ as) (k : Nat) (hk : ∀ w ∈ as, w.fullName.length < k) (keep : WAcct → Bool)
    (hkeep : keep = fun w => showClosed || !wIsClosed as stop k w)
    (hc : ∀ w, w = a ∨ Down as keep a.fullName w → (balanceAt ts w stop).com = a.com)
    (hb : (as.map (fun w => (balanceAt ts w stop).int.natAbs)).sum ≤ 2 ^ 53) :
    ∃ boxes : List ChartBox, balancesChart conv negated showClosed as ts stop levels k a = .ok boxes ∧
      ∀ b ∈ boxes, b.balance = (if (∃ v ∈ as, v.parent = some b.account.fullName) ∧ (balanceAt ts b.account stop).int ≠ 0 then
          some (balanceAt ts b.account stop) else none) ∧
        ∃ sub : List WAcct, sub.Nodup ∧ (∀ v, v ∈ sub ↔ v = b.account ∨ Down as keep b.account.fullName v) ∧
          b.total = ⟨(sub.map (fun w => (balanceAt ts w stop).int)).sum, a.com⟩ ∧
          b.value = (sub.map (fun w => max (if negated then -(balanceAt ts w stop).int else (balanceAt ts w stop).int) 0)).sum ∧
          (if negated then -b.total.int else b.total.int) ≤ b.value ∧
          (b.value = (if negated then -b.total.int else b.total.int) ↔
            ∀ w ∈ sub, 0 ≤ (if negated then -(balanceAt ts w stop).int else (balanceAt ts w stop).int)) := by
  obtain ⟨boxes, h1, _, _, h4⟩ := chart_boxes conv negated showClosed as ht ts stop levels a ha k hk keep hkeep hc hb
  refine ⟨boxes, h1, fun b hb => ?_⟩
  obtain ⟨e0, sub, n1, n2, e, ev⟩ := h4 b hb
  refine ⟨e0, sub, n1, n2, e, ev, ?_⟩
  rw [e, ev]
  show (if negated then -(sub.map _).sum else (sub.map _).sum) ≤ _ ∧ (_ = (if negated then -(sub.map _).sum else (sub.map _).sum) ↔ _)
  clear n1 n2 e ev e0
  have key : ∀ l : List WAcct, (if negated then -(l.map (fun w => (balanceAt ts w stop).int)).sum else (l.map (fun w => (balanceAt ts w stop).int)).sum) =
      (l.map (fun w => if negated then -(balanceAt ts w stop).int else (balanceAt ts w stop).int)).sum := by
    intro l
    cases negated with
    | false => rfl
    | true =>
      induction l with
      | nil => rfl
      | cons w l ih =>
        simp only [if_true, List.map_cons, List.sum_cons] at ih ⊢
        omega
  rw [key]
  unfold partSum ownPart
  generalize hf : (fun w => if negated then -(balanceAt ts w stop).int else (balanceAt ts w stop).int) = f
  have hf' : ∀ w, (if negated then -(balanceAt ts w stop).int else (balanceAt ts w stop).int) = f w := fun w => by rw [← hf]
  simp only [hf']
  induction sub with
  | nil => simp
  | cons w l ih =>
    obtain ⟨i1, i2⟩ := ih
    simp only [List.map_cons, List.sum_cons]
    constructor
    · omega
    · rw [List.forall_mem_cons, ← i2]
      omega

/-- Assets:Bank has 10, Assets:Bank:Savings -4. -/
def chartTxns : List WTxn :=
  [⟨0, [], [], [], [], [⟨str "Assets:Bank", ⟨10, sampleCom⟩, ⟨10, sampleCom⟩, false, [], []⟩,
    ⟨str "Assets:Bank:Savings", ⟨-4, sampleCom⟩, ⟨-4, sampleCom⟩, false, [], []⟩]⟩]

/-- The hypotheses of the theorems are met, and what the chart then is. -/
example : WTree treeAccts ∧ (∀ w ∈ treeAccts, w.fullName.length < 20) ∧
    (∀ w, w = ⟨str "Assets", str "Assets", sampleCom, none, none⟩ ∨ Down treeAccts (fun w => true || !wIsClosed treeAccts 9000000 20 w) (str "Assets") w →
      (balanceAt chartTxns w 9000000).com = sampleCom) ∧
    (treeAccts.map (fun w => (balanceAt chartTxns w 9000000).int.natAbs)).sum ≤ 2 ^ 53 ∧
    (balancesChart (fun _ _ _ => .error .err) false true treeAccts chartTxns 9000000 2 20 ⟨str "Assets", str "Assets", sampleCom, none, none⟩).toOption.map
      (fun l => l.map (fun b => (b.account.name, [b.total.int, ((b.balance.map (fun x : Amount => x.int)).getD 0 : Int), b.depth, b.value]))) =
      some [(str "Assets", [6, 0, 0, 10]), (str "Bank", [6, 10, 1, 10])] ∧
    (balancesChart (fun _ _ _ => .error .err) true true treeAccts chartTxns 9000000 9 20 ⟨str "Bank", str "Assets:Bank", sampleCom, some (str "Assets"), some 8640000⟩).toOption.map
      (fun l => l.map (fun b => (b.account.name, [b.total.int, ((b.balance.map (fun x : Amount => x.int)).getD 0 : Int), b.depth, b.value]))) =
      some [(str "Bank", [6, 10, 0, 4]), (str "Savings", [-4, 0, 1, 4])] := by
  refine ⟨treeAccts_tree, by decide, ?_, by decide +kernel, by decide +kernel, by decide +kernel⟩
  intro w h
  have hw : w ∈ treeAccts := by
    rcases h with rfl | h
    · decide
    · exact h.mem
  revert w
  have : ∀ w ∈ treeAccts, (balanceAt chartTxns w 9000000).com = sampleCom := by decide +kernel
  intro w _ hw
  exact this w hw

/-- **C184 (violated)**: with depth 1 the table shows the account and its subaccounts, the chart only the account. -/
theorem C184_same_accounts_violated : ¬ C184_Statement := by
  intro h
  have e1 : (balancesChart (fun _ _ _ => .error .err) false true treeAccts chartTxns 9000000 1 20 ⟨str "Assets", str "Assets", sampleCom, none, none⟩).toOption.map
      (fun l => l.map (fun b => b.account.fullName)) = some [str "Assets"] := by decide +kernel
  have e2 : (viewBalances (fun _ _ _ => .error .err) true treeAccts chartTxns 9000000 1 20 ⟨str "Assets", str "Assets", sampleCom, none, none⟩).toOption.map
      (fun l => l.map (fun r => r.2.2)) = some [[], str ":Bank"] := by decide +kernel
  cases hb : balancesChart (fun _ _ _ => .error .err) false true treeAccts chartTxns 9000000 1 20 ⟨str "Assets", str "Assets", sampleCom, none, none⟩ with
  | error e => rw [hb] at e1; cases e1
  | ok boxes =>
    cases hr : viewBalances (fun _ _ _ => .error .err) true treeAccts chartTxns 9000000 1 20 ⟨str "Assets", str "Assets", sampleCom, none, none⟩ with
    | error e =>
      have hr' : viewBalances (fun _ _ _ => .error .err) true treeAccts chartTxns 9000000 1 20 ⟨str "Assets", str "Assets", sampleCom, none, none⟩ = .error e := hr
      rw [hr'] at e2; cases e2
    | ok rows =>
      rw [hb] at e1
      have e1 : boxes.map (fun b => b.account.fullName) = [str "Assets"] := Option.some.inj e1
      have e2 : rows.map (fun r => r.2.2) = [[], str ":Bank"] := by
        have hr' : viewBalances (fun _ _ _ => .error .err) true treeAccts chartTxns 9000000 1 20 ⟨str "Assets", str "Assets", sampleCom, none, none⟩ = .ok rows := hr
        rw [hr'] at e2
        exact Option.some.inj e2
      obtain ⟨b, hb', e⟩ := h _ _ _ _ _ _ 1 _ _ boxes rows treeAccts_tree (by decide) (by decide) hb hr (str ":Bank") (by rw [e2]; simp)
      have := List.mem_map_of_mem (f := fun b : ChartBox => b.account.fullName) hb'
      rw [e1, e] at this
      revert this
      decide

/-- **C185 (violated)**: the box of an account with 10 above one with -4 tells 6, and has the area of 10. -/
theorem C185_area_violated : ¬ C185_Statement := by
  intro h
  have e1 : (balancesChart (fun _ _ _ => .error .err) false true treeAccts chartTxns 9000000 1 20 ⟨str "Assets", str "Assets", sampleCom, none, none⟩).toOption.map
      (fun l => l.map (fun b => (b.total.int, b.value))) = some [(6, 10)] := by decide +kernel
  cases hb : balancesChart (fun _ _ _ => .error .err) false true treeAccts chartTxns 9000000 1 20 ⟨str "Assets", str "Assets", sampleCom, none, none⟩ with
  | error e => rw [hb] at e1; cases e1
  | ok boxes =>
    rw [hb] at e1
    have e1 : boxes.map (fun b => (b.total.int, b.value)) = [(6, 10)] := Option.some.inj e1
    have : (6, 10) ∈ boxes.map (fun b => (b.total.int, b.value)) := by rw [e1]; simp
    obtain ⟨b, hb', e⟩ := List.mem_map.mp this
    injection e with e2 e3
    have := h _ false _ _ _ _ _ _ _ boxes treeAccts_tree (by decide) (by decide) hb b hb' (by rw [if_neg Bool.false_ne_true, e2]; decide)
    rw [if_neg Bool.false_ne_true, e2, e3] at this
    exact absurd this (by decide)

end Verif
