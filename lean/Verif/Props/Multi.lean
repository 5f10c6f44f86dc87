import Mathlib.Data.List.Forall2
import Verif.Props.Balance
import Verif.Props.Register
import Verif.Props.TextOut
import Mathlib.Algebra.Order.Field.Rat
import Mathlib.Algebra.Order.Field.Basic
import Mathlib.Tactic.FieldSimp
import Mathlib.Tactic.Linarith
/-!
# Properties C145, C146: balances and registers over several commodities
-/
namespace Verif

/-! ## Specification -/

/-- What an amount `x` adds to a total in commodity `c`, in smallest units of `c`: its own units if it is in `c`, else what the conversion
yields, brought to the decimals of `c` (cut toward zero). -/
def Contributes (conv : Conv) (c : Com) (x : Amount) (n : Int) : Prop :=
  (x.com = c ∧ n = x.int) ∨
  (x.com ≠ c ∧ ∃ y, conv c x = .ok y ∧
    n = if y.com.decimals ≤ c.decimals then y.int * 10 ^ (c.decimals - y.com.decimals) else y.int.tdiv (10 ^ (y.com.decimals - c.decimals)))

/-- `n` is the sum of what the amounts contribute. -/
def SumOf (conv : Conv) (c : Com) (l : List Amount) (n : Int) : Prop := ∃ ns, List.Forall₂ (Contributes conv c) l ns ∧ n = ns.sum

/-! ## Lemmas -/

theorem contributes_unique {conv : Conv} {c : Com} {x : Amount} {m n : Int} (h : Contributes conv c x m) (h' : Contributes conv c x n) : m = n := by
  rcases h with ⟨h1, h2⟩ | ⟨h1, y, h2, h3⟩ <;> rcases h' with ⟨h1', h2'⟩ | ⟨h1', y', h2', h3'⟩
  · rw [h2, h2']
  · exact absurd h1 h1'
  · exact absurd h1' h1
  · rw [h2] at h2'; injection h2' with e; subst e; rw [h3, h3']

theorem sumOf_unique {conv : Conv} {c : Com} : ∀ {l : List Amount} {m n : Int}, SumOf conv c l m → SumOf conv c l n → m = n := by
  intro l m n ⟨ms, h1, e1⟩ ⟨ns, h2, e2⟩
  subst e1; subst e2
  congr 1
  induction h1 generalizing ns with
  | nil => cases h2; rfl
  | cons hc _ ih =>
    cases h2 with
    | cons hc' h' => rw [contributes_unique hc hc', ih _ h']

theorem addIn_contributes {conv : Conv} {t q t' : Amount} (h : t.addIn conv q = .ok t') :
    t'.com = t.com ∧ ∃ n, Contributes conv t.com q n ∧ t'.int = t.int + n := by
  unfold Amount.addIn at h
  obtain ⟨b, hb, h⟩ := bind_ok.mp h
  obtain ⟨x, hx, h⟩ := bind_ok.mp h
  injection h with h
  subst h
  refine ⟨rfl, x, ?_, rfl⟩
  have hpow : ∀ n : Nat, ((10 ^ n : Nat) : Int) = 10 ^ n := fun n => by push_cast; rfl
  have hten : ∀ {n p : Nat}, bigPow10 n = .ok p → p = 10 ^ n := by
    intro n p hp
    by_cases hn : n ≤ 50
    · rw [bigPow10_ok hn] at hp; injection hp with hp; exact hp.symm
    · rw [bigPow10_panic (by omega)] at hp; cases hp
  have hmap : ∀ {e : Except Fault Nat} {g : Nat → Int} {x : Int}, (g <$> e) = .ok x → ∃ p, e = .ok p ∧ g p = x := by
    intro e g x hx
    cases e with
    | error f => cases hx
    | ok p => injection hx with hx; exact ⟨p, rfl, hx⟩
  have hadj : x = if b.com.decimals ≤ t.com.decimals then b.int * 10 ^ (t.com.decimals - b.com.decimals)
      else b.int.tdiv (10 ^ (b.com.decimals - t.com.decimals)) := by
    unfold Amount.adjustedTo at hx
    split at hx
    · rename_i hlt
      obtain ⟨p, hp, hx⟩ := hmap hx
      rw [if_pos (by omega), ← hx]
      rw [hten hp, hpow]
    · split at hx
      · rename_i h1 h2
        obtain ⟨p, hp, hx⟩ := hmap hx
        rw [if_neg (by omega), ← hx]
        rw [hten hp, hpow]
      · rename_i h1 h2
        injection hx with hx
        rw [if_pos (by omega), ← hx, show t.com.decimals - b.com.decimals = 0 by omega, pow_zero, mul_one]
  by_cases hc : t.com = q.com
  · rw [if_neg (by simpa using hc)] at hb
    injection hb with hb
    subst hb
    left
    refine ⟨hc.symm, ?_⟩
    rw [hadj, hc]
    simp
  · rw [if_pos hc] at hb
    right
    exact ⟨fun e => hc e.symm, b, hb, hadj⟩

theorem sumInto_sumOf {conv : Conv} : ∀ {l : List Amount} {t t' : Amount}, sumInto conv t l = .ok t' →
    t'.com = t.com ∧ ∃ n, SumOf conv t.com l n ∧ t'.int = t.int + n := by
  intro l
  induction l with
  | nil =>
    intro t t' h
    injection h with h; subst h
    exact ⟨rfl, 0, ⟨[], .nil, rfl⟩, by simp⟩
  | cons q l ih =>
    intro t t' h
    unfold sumInto at h
    obtain ⟨t1, h1, h⟩ := bind_ok.mp h
    obtain ⟨c1, n, hn, e1⟩ := addIn_contributes h1
    obtain ⟨c2, m, ⟨ms, hm, rfl⟩, e2⟩ := ih h
    refine ⟨c2.trans c1, n + ms.sum, ⟨n :: ms, .cons hn (by rw [← c1]; exact hm), by simp⟩, by rw [e2, e1]; ring⟩

/-- Adding up, for any order in which nothing is added to an account after it was passed on. -/
theorem addUp_sums (env : Env) (parent : Str → Option Str) : ∀ (l : List Str) (m m' : AmtMap), addUp env parent m l = .ok m' →
    (∀ a ∈ l, m a ≠ none) → (∀ a ∈ l, parent a ≠ some a) → l.Pairwise (fun a b => parent b ≠ some a) →
    (∀ x, m x = none → m' x = none) ∧
    (∀ x q, m x = some q → ∃ q' ns, m' x = some q' ∧ q'.com = q.com ∧
      List.Forall₂ (fun a n => ∃ y, m' a = some y ∧ Contributes env.conv q.com y n) (l.filter (fun a => decide (parent a = some x))) ns ∧
      q'.int = q.int + ns.sum) := by
  intro l
  induction l with
  | nil =>
    intro m m' h _ _ _
    injection h with h; subst h
    exact ⟨fun _ h => h, fun x q h => ⟨q, [], h, rfl, .nil, by simp⟩⟩
  | cons a l ih =>
    intro m m' h hm hself hpw
    obtain ⟨hpa, hpl⟩ := List.pairwise_cons.mp hpw
    have hself' : ∀ b ∈ l, parent b ≠ some b := fun b hb => hself b (by simp [hb])
    have hnone : l.filter (fun b => decide (parent b = some a)) = [] := by
      rw [List.filter_eq_nil_iff]
      intro b hb
      simpa using hpa b hb
    unfold addUp at h
    rcases hp : parent a with _ | p
    · rw [hp] at h
      obtain ⟨h1, h2⟩ := ih m m' h (fun b hb => hm b (by simp [hb])) hself' hpl
      refine ⟨h1, fun x q hx => ?_⟩
      rw [List.filter_cons_of_neg (by simp [hp])]
      exact h2 x q hx
    · rw [hp] at h
      simp only at h
      have hap : a ≠ p := by rintro rfl; exact hself a (by simp) hp
      rcases hmp : m p with _ | cump
      · rw [hmp] at h
        obtain ⟨h1, h2⟩ := ih m m' h (fun b hb => hm b (by simp [hb])) hself' hpl
        refine ⟨h1, fun x q hx => ?_⟩
        have hxp : p ≠ x := by rintro rfl; rw [hmp] at hx; cases hx
        rw [List.filter_cons_of_neg (by simp [hp, hxp])]
        exact h2 x q hx
      · rw [hmp] at h
        simp only at h
        rcases hma : m a with _ | cum
        · exact absurd hma (hm a (by simp))
        rw [hma] at h
        simp only at h
        obtain ⟨x1, hx1, h⟩ := bind_ok.mp h
        have hx1 := checkNoError_inv hx1
        obtain ⟨c1, n, hn, e1⟩ := addIn_contributes hx1
        have hset : ∀ y, y ≠ p → (m.set p x1) y = m y := by intro y hy; simp [AmtMap.set, hy]
        obtain ⟨h1, h2⟩ := ih (m.set p x1) m' h (by
          intro b hb
          by_cases hbp : b = p
          · subst hbp; simp [AmtMap.set]
          · rw [hset b hbp]; exact hm b (by simp [hb])) hself' hpl
        obtain ⟨q', ns, g1, g2, g3, g4⟩ := h2 a cum (by rw [hset a hap]; exact hma)
        rw [hnone] at g3
        cases g3
        have hq' : q' = cum := by
          cases q'; cases cum
          simp only [List.sum_nil, add_zero] at g2 g4
          rw [g2, g4]
        subst hq'
        refine ⟨fun x hx => h1 x (by
          rw [hset x (by rintro rfl; rw [hmp] at hx; cases hx)]; exact hx), fun x q hx => ?_⟩
        by_cases hxp : x = p
        · subst hxp
          rw [hmp] at hx; injection hx with hx; subst hx
          obtain ⟨r, ns', k1, k2, k3, k4⟩ := h2 x x1 (by simp [AmtMap.set])
          refine ⟨r, n :: ns', k1, k2.trans c1, ?_, by rw [k4, e1, List.sum_cons]; ring⟩
          rw [List.filter_cons_of_pos (by simp [hp])]
          refine .cons ⟨_, g1, hn⟩ ?_
          rw [← c1]; exact k3
        · rw [List.filter_cons_of_neg (by simp [hp]; exact fun e => hxp e.symm)]
          exact h2 x q (by rw [hset x hxp]; exact hx)

theorem forall2_perm_sum {α : Type} {R : α → Int → Prop} {l l' : List α} (hp : l.Perm l') {ns : List Int} (h : List.Forall₂ R l ns) :
    ∃ ns', List.Forall₂ R l' ns' ∧ ns'.sum = ns.sum := by
  induction hp generalizing ns with
  | nil => exact ⟨ns, h, rfl⟩
  | cons x _ ih =>
    cases h with
    | cons hx h =>
      obtain ⟨ns', h1, h2⟩ := ih h
      exact ⟨_ :: ns', .cons hx h1, by simp [h2]⟩
  | swap x y l =>
    cases h with
    | cons hx h =>
      cases h with
      | cons hy h => exact ⟨_ :: _ :: _, .cons hy (.cons hx h), by simp only [List.sum_cons]; ring⟩
  | trans _ _ ih1 ih2 =>
    obtain ⟨ns1, h1, e1⟩ := ih1 h
    obtain ⟨ns2, h2, e2⟩ := ih2 h1
    exact ⟨ns2, h2, e2.trans e1⟩

variable {names : List Str} {L : Links}

/-- Children before parents. -/
theorem TreeOK.walkPost_order (t : TreeOK names L) : ∀ a ∈ names, (walkPostOf names L a).Pairwise (fun x y => ¬ AncName x y) := by
  refine t.induction ?_
  intro a ha ih
  rw [t.walkPost_cons, List.pairwise_append]
  have hmem : ∀ c ∈ L.children a, ∀ x, x ∈ walkPostOf names L c ↔ x ∈ names ∧ InSub c x := by
    intro c hc x
    rw [(t.walkPost_perm c (t.child_names hc)).mem_iff]
    exact t.mem_walk c (t.child_names hc) x
  refine ⟨?_, by simp, ?_⟩
  · rw [List.pairwise_flatMap]
    refine ⟨fun c hc => ih c hc, ?_⟩
    refine (t.chNodup a).imp_of_mem ?_
    intro c d hc hd hne x hx y hy hxy
    have hxs := ((hmem c hc x).mp hx).2
    have hys := ((hmem d hd y).mp hy).2
    have hcy : InSub c y := by
      rcases hxs with rfl | hcx
      · exact .inr hxy
      · exact .inr (ancName_trans _ _ _ hcx hxy)
    exact hne (t.siblings_disjoint hc hd hcy hys)
  · intro x hx y hy hxy
    simp only [List.mem_singleton] at hy
    subst hy
    obtain ⟨c, hc, hx⟩ := List.mem_flatMap.mp hx
    have hac := t.child_anc hc
    rcases ((hmem c hc x).mp hx).2 with rfl | hcx
    · exact ancName_irrefl _ (ancName_trans _ _ _ hac hxy)
    · exact ancName_irrefl _ (ancName_trans _ _ _ (ancName_trans _ _ _ hac hcx) hxy)

/-- The accounts directly below `a`, by name. -/
def childrenOf (names : List Str) (a : Str) : List Str := names.filter (fun b => decide (b ≠ rootName ∧ parentOf b = a))

theorem ownTotals_sums (env : Env) (compile : Compile) (v : View) (f : Filters) (hv : ValidFilters compile f) : ∀ (accs : List Str),
    accs.Nodup → ∀ (m m' : AmtMap), (∀ a ∈ accs, InDateOrder v.date (v.postings a)) → ownTotals env compile v f m accs = .ok m' →
    (∀ a ∈ accs, ∃ x, m' a = some x ∧ x.com = env.comOf a ∧ SumOf env.conv (env.comOf a) ((selectedOf compile v f a).map v.qty) x.int) ∧
    (∀ a, a ∉ accs → m' a = m a) := by
  intro accs
  induction accs with
  | nil => intro _ m m' _ h; injection h with h; subst h; exact ⟨by simp, fun _ _ => rfl⟩
  | cons a accs ih =>
    intro hn m m' hs h
    obtain ⟨hna, hn'⟩ := List.nodup_cons.mp hn
    unfold ownTotals at h
    rw [balanceTrim_spec compile v f a hv (hs a (by simp))] at h
    obtain ⟨ps, hps, h⟩ := bind_ok.mp h
    injection hps with hps; subst hps
    obtain ⟨t, ht, h⟩ := bind_ok.mp h
    obtain ⟨c1, n, hn1, e1⟩ := sumInto_sumOf (checkNoError_inv ht)
    obtain ⟨h1, h2⟩ := ih hn' _ _ (fun b hb => hs b (by simp [hb])) h
    constructor
    · intro b hb
      by_cases hba : b ∈ accs
      · exact h1 b hba
      · have : b = a := by simpa [hba] using hb
        subst this
        refine ⟨t, by rw [h2 b hba]; simp [AmtMap.set], c1, ?_⟩
        rw [e1]
        simpa [zeroAmount] using hn1
    · intro b hb
      simp only [List.mem_cons, not_or] at hb
      rw [h2 b hb.2]; simp [AmtMap.set, hb.1]

/-- **C145** Whenever the balance command prints something, over any commodities: an account's own total is the sum of what its selected
postings contribute in its commodity, and its cumulative total is its own total plus what the cumulative totals of the accounts directly
below it contribute. -/
theorem C145_balance_converts {dflt : Str} {decls accts : List Acct} (h : ResolvedAccounts dflt decls accts L) (env : Env) (compile : Compile)
    (v : View) (f : Filters) (hv : ValidFilters compile f) (level : Int) (fuel : Nat) (zero : Bool) (r : Str)
    (hr : r ∈ accts.map (·.fullName)) (hs : ∀ a ∈ accts.map (·.fullName), InDateOrder v.date (v.postings a))
    (hf : treeFuel (accts.map (·.fullName)) ≤ fuel) (rows : List (Str × Option Amount × Option Amount))
    (hrun : balanceCmd env compile v L fuel f level zero r = .ok rows) :
    ∃ own cum : Str → Amount,
      rows = ((walkOf (accts.map (·.fullName)) L r).filter (RowOf L fuel level zero (fun a => some (cum a)))).map
        (fun a => (a, some (own a), some (cum a))) ∧
      ∀ a ∈ accts.map (·.fullName), InSub r a →
        (own a).com = env.comOf a ∧ SumOf env.conv (env.comOf a) ((selectedOf compile v f a).map v.qty) (own a).int ∧
        (cum a).com = env.comOf a ∧
        ∃ n, SumOf env.conv (env.comOf a) ((childrenOf (accts.map (·.fullName)) a).map cum) n ∧ (cum a).int = (own a).int + n := by
  classical
  have t := TreeOK.of h
  set names := accts.map (·.fullName) with hnames
  have hmem := t.mem_walk r hr
  unfold balanceCmd at hrun
  dsimp only at hrun
  rw [t.walk_fuel fuel hf r hr, t.walkPost_fuel fuel hf r hr] at hrun
  obtain ⟨m1, h1, hrun⟩ := bind_ok.mp hrun
  obtain ⟨m2, h2, hrun⟩ := bind_ok.mp hrun
  obtain ⟨o1, o2⟩ := ownTotals_sums env compile v f hv _ (t.walk_nodup r hr) _ _ (fun a ha => hs a ((hmem a).mp ha).1) h1
  have hpost : ∀ a, a ∈ walkPostOf names L r ↔ a ∈ names ∧ InSub r a := by
    intro a; rw [(t.walkPost_perm r hr).mem_iff]; exact hmem a
  have hparent : ∀ a b, L.parent b = some a → AncName a b ∧ b ∈ names ∧ b ≠ rootName ∧ parentOf b = a := by
    intro a b hp
    rw [t.parent] at hp
    split at hp
    · rename_i hh
      injection hp with hp
      subst hp
      exact ⟨ancName_parentOf b hh.2, hh.1, hh.2, rfl⟩
    · cases hp
  obtain ⟨u1, u2⟩ := addUp_sums env L.parent _ _ _ h2 (by
      intro a ha
      obtain ⟨x, hx, _⟩ := o1 a ((hmem a).mpr ((hpost a).mp ha))
      rw [hx]; simp) (by
      intro a _ hp
      exact ancName_irrefl _ (hparent a a hp).1) (by
      refine (t.walkPost_order r hr).imp ?_
      intro a b hab hp
      exact hab (hparent a b hp).1)
  have hown : ∀ a ∈ names, InSub r a → ∃ x, m1 a = some x ∧ x.com = env.comOf a ∧
      SumOf env.conv (env.comOf a) ((selectedOf compile v f a).map v.qty) x.int := fun a ha hsub => o1 a ((hmem a).mpr ⟨ha, hsub⟩)
  have hcum : ∀ a ∈ names, InSub r a → ∃ x, m2 a = some x := by
    intro a ha hsub
    obtain ⟨x, hx, _⟩ := hown a ha hsub
    obtain ⟨q, _, hq, _⟩ := u2 a x hx
    exact ⟨q, hq⟩
  have hcum' : ∀ a ∈ names, InSub r a → m2 a = some ((m2 a).getD default) := by
    intro a ha hsub
    obtain ⟨x, hx⟩ := hcum a ha hsub
    rw [hx]; rfl
  have hown' : ∀ a ∈ names, InSub r a → m1 a = some ((m1 a).getD default) := by
    intro a ha hsub
    obtain ⟨x, hx, _⟩ := hown a ha hsub
    rw [hx]; rfl
  refine ⟨fun a => (m1 a).getD default, fun a => (m2 a).getD default, ?_, ?_⟩
  · rw [balanceRows_spec t fuel level zero m1 m2 _ hf (fun a ha => ((hmem a).mp ha).1)] at hrun
    injection hrun with hrun
    rw [← hrun]
    have hfil : (walkOf names L r).filter (RowOf L fuel level zero m2) =
        (walkOf names L r).filter (RowOf L fuel level zero (fun a => some ((m2 a).getD default))) := by
      refine List.filter_congr ?_
      intro a ha
      unfold RowOf
      rw [Bool.eq_iff_iff, decide_eq_true_iff, decide_eq_true_iff]
      dsimp only
      rw [← hcum' a ((hmem a).mp ha).1 ((hmem a).mp ha).2]
    rw [hfil]
    refine List.map_congr_left ?_
    intro a ha
    have ha := (hmem a).mp (List.mem_of_mem_filter ha)
    rw [← hcum' a ha.1 ha.2, ← hown' a ha.1 ha.2]
  · intro a ha hsub
    obtain ⟨x, hx, hxc, hxs⟩ := hown a ha hsub
    obtain ⟨q, ns, k1, k2, k3, k4⟩ := u2 a x hx
    dsimp only
    rw [hx, k1]
    simp only [Option.getD_some]
    refine ⟨hxc, hxs, k2.trans hxc, ?_⟩
    have hperm : ((walkPostOf names L r).filter (fun b => decide (L.parent b = some a))).Perm (childrenOf names a) := by
      unfold childrenOf
      rw [List.perm_ext_iff_of_nodup (((t.walkPost_perm r hr).nodup_iff.mpr (t.walk_nodup r hr)).filter _) (t.nodup.filter _)]
      intro b
      simp only [List.mem_filter, decide_eq_true_eq, hpost]
      constructor
      · rintro ⟨_, hp⟩
        obtain ⟨_, e1, e2, e3⟩ := hparent a b hp
        exact ⟨e1, e2, e3⟩
      · rintro ⟨e1, e2, e3⟩
        have hp : L.parent b = some a := by rw [t.parent, if_pos ⟨e1, e2⟩, e3]
        refine ⟨⟨e1, ?_⟩, hp⟩
        have hab := (hparent a b hp).1
        rcases hsub with rfl | hra
        · exact .inr hab
        · exact .inr (ancName_trans _ _ _ hra hab)
    obtain ⟨ns', f1, f2⟩ := forall2_perm_sum hperm k3
    refine ⟨ns'.sum, ⟨ns', ?_, rfl⟩, by rw [k4, f2]⟩
    rw [List.forall₂_map_left_iff]
    refine f1.imp ?_
    rintro b n ⟨y, hy, hc⟩
    rw [hy, Option.getD_some, ← hxc]
    exact hc

/-! ## How far from the exact value -/

/-- The exact value of an amount in smallest units of `c`, by the newest price. -/
def exactValue (db : PriceDB) (c : Com) (x : Amount) : ℚ :=
  if x.com = c then x.int
  else match lookupPrices (db x.com) c with
    | some (p :: _) => x.int * p.value.int / 10 ^ x.com.decimals
    | _ => 0

/-- The amounts that are not in `c`. -/
def foreign (c : Com) (l : List Amount) : Nat := (l.filter (fun x => decide (x.com ≠ c))).length

/-- **C145** With direct prices and commodities that have at least as many decimals as the currency, a sum is off by at most one smallest
unit per converted amount. -/
theorem C145_error (db : PriceDB) (ord : MapOrder) (fuel : Nat) (c : Com) (hc50 : c.decimals ≤ 50) : ∀ (l : List Amount) (n : Int),
    (∀ x ∈ l, x.com ≠ c → x.com.decimals ≤ 50 ∧ c.decimals ≤ x.com.decimals ∧
      ∃ p ps, lookupPrices (db x.com) c = some (p :: ps) ∧ p.value.com = c) →
    SumOf (convWith db ord (fuel + 1)) c l n → |(n : ℚ) - (l.map (exactValue db c)).sum| ≤ foreign c l := by
  intro l n hl ⟨ns, hns, hn⟩
  subst hn
  induction hns with
  | nil => simp [foreign]
  | @cons x m l ns hx _ ih =>
    have ih := ih (fun y hy => hl y (by simp [hy]))
    have hone : |(m : ℚ) - exactValue db c x| ≤ foreign c [x] := by
      unfold exactValue foreign
      by_cases hxc : x.com = c
      · rcases hx with ⟨_, h2⟩ | ⟨h1, _⟩
        · simp [hxc, h2]
        · exact absurd hxc h1
      · obtain ⟨hx50, hcd, p, ps, hp, hpc⟩ := hl x (by simp) hxc
        obtain ⟨a', ha', hac, hb, _⟩ := C05_conversion_error_partial db ord fuel ⟨0, c⟩ x p ps (fun e => hxc e.symm) hp hpc hc50 hx50
        have hb := hb hcd
        obtain ⟨_, k, hk, hk'⟩ := addIn_contributes ha'
        have hkm := contributes_unique hk hx
        rw [if_neg hxc, hp]
        simp only [sub_zero] at hb
        rw [hk', zero_add, hkm] at hb
        have hpos : (0 : ℚ) < 10 ^ x.com.decimals := by positivity
        have hb' : |(m : ℚ) * 10 ^ x.com.decimals - x.int * p.value.int| < 10 ^ x.com.decimals := by exact_mod_cast hb
        have e : (m : ℚ) - x.int * p.value.int / 10 ^ x.com.decimals = (m * 10 ^ x.com.decimals - x.int * p.value.int) / 10 ^ x.com.decimals := by
          field_simp
        simp only [e]
        rw [abs_div, abs_of_pos hpos, div_le_iff₀ hpos]
        have : ((List.filter (fun x => decide (x.com ≠ c)) [x]).length : ℚ) = 1 := by simp [hxc]
        rw [this, one_mul]
        exact le_of_lt hb'
    have hcount : (foreign c (x :: l) : ℚ) = foreign c [x] + foreign c l := by
      have : foreign c (x :: l) = foreign c [x] + foreign c l := by
        unfold foreign
        rw [show x :: l = [x] ++ l from rfl, List.filter_append, List.length_append]
      rw [this]; push_cast; rfl
    rw [List.map_cons, List.sum_cons, List.sum_cons, hcount]
    push_cast
    have e : (m : ℚ) + (ns.sum : ℤ) - (exactValue db c x + (l.map (exactValue db c)).sum) =
        (m - exactValue db c x) + ((ns.sum : ℤ) - (l.map (exactValue db c)).sum) := by ring
    push_cast at e ih
    rw [e]
    exact le_trans (abs_add_le _ _) (add_le_add hone ih)

/-! ## C146 -/

theorem runningTotals_sums {conv : Conv} : ∀ {l : List Amount} {t : Amount} {ts : List Amount}, runningTotals conv t l = .ok ts →
    ts.length = l.length ∧ ∀ (i : Nat) (hi : i < ts.length), ts[i].com = t.com ∧ ∃ n, SumOf conv t.com (l.take (i + 1)) n ∧ ts[i].int = t.int + n := by
  intro l
  induction l with
  | nil => intro t ts h; injection h with h; subst h; exact ⟨rfl, by simp⟩
  | cons q l ih =>
    intro t ts h
    unfold runningTotals at h
    obtain ⟨t1, h1, h⟩ := bind_ok.mp h
    obtain ⟨ts1, h2, h⟩ := bind_ok.mp h
    injection h with h; subst h
    obtain ⟨c1, n, hn, e1⟩ := addIn_contributes (checkNoError_inv h1)
    obtain ⟨g1, g2⟩ := ih h2
    refine ⟨by simp [g1], ?_⟩
    intro i hi
    cases i with
    | zero => exact ⟨c1, n, ⟨[n], .cons hn (by simp), by simp⟩, e1⟩
    | succ i =>
      obtain ⟨k1, m, ⟨ms, hm, rfl⟩, k2⟩ := g2 i (by simpa using hi)
      refine ⟨k1.trans c1, n + ms.sum, ⟨n :: ms, ?_, by simp⟩, ?_⟩
      · rw [List.take_succ_cons]
        exact .cons hn (by rw [← c1]; exact hm)
      · rw [List.getElem_cons_succ, k2, e1]; ring

theorem printRows_sums {conv : Conv} {v : View} {siblings : PRef → List PRef} {c : Com} {ps : List PRef} {rows : List (PRef × PRef × Amount)}
    (h : printRows conv v siblings c ps = .ok rows) :
    rows.map (·.1) = ps ∧ ∀ (i : Nat) (hi : i < rows.length), (rows[i].2.2).com = c ∧
      SumOf conv c ((rows.take (i + 1)).map (fun row => v.qty row.1)) (rows[i].2.2).int := by
  unfold printRows at h
  split at h
  · cases h
  obtain ⟨ts, hts, h⟩ := bind_ok.mp h
  injection h with h
  obtain ⟨g1, g2⟩ := runningTotals_sums hts
  have hlen : ts.length = ps.length := by simpa using g1
  have hmap : rows.map (·.1) = ps := by
    rw [← h, List.map_map]
    have : ((fun x : PRef × PRef × Amount => x.1) ∘ fun e : PRef × Amount => (e.1, (other (siblings e.1) e.1).getD 0, e.2)) = Prod.fst := rfl
    rw [this, List.map_fst_zip (by omega)]
  refine ⟨hmap, ?_⟩
  intro i hi
  have hi' : i < ts.length := by
    have := congrArg List.length hmap
    simp at this; omega
  have hrow : rows[i].2.2 = ts[i] := by
    subst h
    simp only [List.getElem_map, List.getElem_zip]
  obtain ⟨k1, n, hn, k2⟩ := g2 i hi'
  rw [hrow]
  refine ⟨k1, ?_⟩
  have e : (rows.take (i + 1)).map (fun row => v.qty row.1) = (ps.map v.qty).take (i + 1) := by
    rw [← hmap, List.map_map, ← List.map_take]; rfl
  rw [e, k2]
  simpa [zeroAmount] using hn

/-- **C146** Whenever the register prints something, over any commodities: its rows are the selected postings of the account (with `-r` of
everything below it too) in date order, and the running total on a row is the sum of what the postings up to it contribute in the
commodity of the account. -/
theorem C146_register_converts {dflt : Str} {decls accts : List Acct} (h : ResolvedAccounts dflt decls accts L) (env : Env) (compile : Compile)
    (v : View) (siblings : PRef → List PRef) (f : Filters) (hv : RegValid compile f) (fuel : Nat) (recurse : Bool) (r : Str)
    (hr : r ∈ accts.map (·.fullName)) (hs : ∀ a ∈ accts.map (·.fullName), InDateOrder v.date (v.postings a))
    (hf : treeFuel (accts.map (·.fullName)) ≤ fuel) (hbang : recurse = true → NoBang f.payee) (rows : List (PRef × PRef × Amount))
    (hrun : fullRegister env compile v siblings L fuel f recurse r = .ok rows) :
    (rows.map (·.1)).Perm ((if recurse then familyOf (accts.map (·.fullName)) r else [r]).flatMap (regSelectedOf compile v f)) ∧
      (rows.map (·.1)).Pairwise (fun p q => v.date p ≤ v.date q) ∧
      ∀ (i : Nat) (hi : i < rows.length), (rows[i].2.2).com = env.comOf r ∧
        SumOf env.conv (env.comOf r) ((rows.take (i + 1)).map (fun row => v.qty row.1)) (rows[i].2.2).int := by
  have t := TreeOK.of h
  set names := accts.map (·.fullName)
  have hmem := t.mem_walk r hr
  unfold fullRegister at hrun
  cases recurse with
  | false =>
    simp only [Bool.false_eq_true, if_false] at hrun ⊢
    rw [registerTrim_spec compile v f r hv (hs r hr)] at hrun
    obtain ⟨g1, g2⟩ := printRows_sums hrun
    refine ⟨by rw [g1]; simp, ?_, g2⟩
    rw [g1]; exact (hs r hr).filter _
  | true =>
    simp only [if_true] at hrun ⊢
    rw [t.walk_fuel fuel hf r hr, registerWalk_spec compile v f hv (hbang rfl) _ (fun a ha => hs a ((hmem a).mp ha).1)] at hrun
    obtain ⟨g1, g2⟩ := printRows_sums hrun
    have e : ((walkOf names L r).map (fun a => (a, regSelectedOf compile v f a))).flatMap (·.2) =
        (walkOf names L r).flatMap (regSelectedOf compile v f) := by
      rw [List.flatMap_map]
    rw [e] at g1
    refine ⟨?_, ?_, g2⟩
    · rw [g1]
      exact (stableSort_perm _ _).trans ((familyOf_perm t r hr).flatMap_right _)
    · rw [g1]
      have := stableSort_sorted _ (dateLt_strictWeak v.date) ((walkOf names L r).flatMap (regSelectedOf compile v f))
      exact this.imp (by intro a b hab; simpa using hab)

/-! An account in CAD with one in USD below it, at 1.30. -/

def usd : Com := ⟨5, str "USD", 2⟩
def usdDb : PriceDB := fun c => if c = usd then [(sampleCom, [⟨⟨130, sampleCom⟩, 0⟩])] else []
def multiEnv : Env := ⟨[str "A", str "A:B", str "A:C"], fun a => if a = str "A:B" then usd else sampleCom, fun n => .ok n, convWith usdDb (fun _ _ => []) 3⟩
def multiView : View := ⟨fun a => if a = str "A:B" then [0, 1] else if a = str "A:C" then [2] else [], fun p => (p : Nat), fun _ => [],
  fun _ => none, fun _ => none, fun p => if p < 2 then ⟨[505, 700].getD p 0, usd⟩ else ⟨-2, sampleCom⟩⟩

/-- 12.05 USD are 15.66 CAD (15.665 cut). -/
example : balanceCmd multiEnv (fun _ => none) multiView balLinks 7 ⟨none, none, [], []⟩ 0 false (str "A") =
    .ok [(str "A", some ⟨0, sampleCom⟩, some ⟨1564, sampleCom⟩), (str "A:B", some ⟨1205, usd⟩, some ⟨1205, usd⟩),
      (str "A:C", some ⟨-2, sampleCom⟩, some ⟨-2, sampleCom⟩)] := by
  exact ok_of_opt (by decide +kernel)

example : Contributes multiEnv.conv sampleCom ⟨1205, usd⟩ 1566 ∧ exactValue usdDb sampleCom ⟨1205, usd⟩ = 3133 / 2 :=
  ⟨.inr ⟨by decide, ⟨1566, usd⟩, by decide +kernel, by decide⟩, by
    have h : lookupPrices (usdDb usd) sampleCom = some [⟨⟨130, sampleCom⟩, 0⟩] := by decide
    unfold exactValue
    rw [if_neg (by decide)]
    simp only [h]
    simp only [usd, sampleCom]
    norm_num⟩

end Verif
