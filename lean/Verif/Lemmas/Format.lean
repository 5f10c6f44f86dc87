import Verif.Model.Format
import Verif.Lemmas.Amount
import Verif.Lemmas.Sort
import Verif.Lemmas.Ledger
/-
Lemmas about resolution on values and `trimWS`.
-/
namespace Verif

/-- What `AddIn` adds. -/
def addDelta (conv : Com → Amount → Except Fault Amount) (c : Com) (b : Amount) : Except Fault Int :=
  (if c ≠ b.com then conv c b else .ok b).bind fun b' => b'.adjustedTo ⟨0, c⟩

theorem addIn_delta (conv) (a b : Amount) : a.addIn conv b = (addDelta conv a.com b).bind fun x => .ok ⟨a.int + x, a.com⟩ := by
  unfold Amount.addIn addDelta
  cases (if a.com ≠ b.com then conv a.com b else .ok b) with
  | error e => rfl
  | ok b' => rfl

theorem totalP_com (conv) : ∀ (ps : List PPost) (t : Amount) (m : Bool) (r : Amount × Bool), totalP conv t m ps = .ok r → r.1.com = t.com := by
  intro ps
  induction ps with
  | nil => intro t m r h; simp only [totalP, Except.ok.injEq] at h; subst h; rfl
  | cons p ps ih =>
    intro t m r h
    unfold totalP at h
    cases hq : p.quantity with
    | none =>
      rw [hq] at h
      simp only [] at h
      cases m with
      | true => simp at h
      | false => exact ih t true r (by simpa using h)
    | some q =>
      rw [hq] at h
      simp only [] at h
      obtain ⟨t', h1, h2⟩ := bind_ok.mp h
      have := ih _ _ _ h2
      rw [this]
      rw [checkNoError_ok, addIn_delta] at h1
      obtain ⟨x, _, h3⟩ := bind_ok.mp h1
      cases h3; rfl

theorem totalP_shift (conv) : ∀ (ps : List PPost) (t : Amount) (m : Bool) (r : Amount × Bool) (k : Int), totalP conv t m ps = .ok r →
    totalP conv ⟨t.int + k, t.com⟩ m ps = .ok (⟨r.1.int + k, r.1.com⟩, r.2) := by
  intro ps
  induction ps with
  | nil => intro t m r k h; simp only [totalP, Except.ok.injEq] at h; subst h; rfl
  | cons p ps ih =>
    intro t m r k h
    unfold totalP at h ⊢
    cases hq : p.quantity with
    | none =>
      rw [hq] at h
      simp only [] at h ⊢
      cases m with
      | true => simp at h
      | false =>
        rw [if_neg (by decide)] at h ⊢
        exact ih t true r k h
    | some q =>
      rw [hq] at h
      simp only [] at h ⊢
      obtain ⟨t', h1, h2⟩ := bind_ok.mp h
      rw [checkNoError_ok, addIn_delta] at h1
      obtain ⟨x, h4, h3⟩ := bind_ok.mp h1
      cases h3
      have : checkNoError (Amount.addIn conv ⟨t.int + k, t.com⟩ q) = .ok ⟨t.int + x + k, t.com⟩ := by
        rw [addIn_delta]
        simp only [h4, Except.bind, checkNoError]
        congr 2; omega
      rw [this]
      exact ih ⟨t.int + x, t.com⟩ m r k h2

/-- With the missing quantity already seen there is no other; without a missing quantity the flag does not matter. -/
theorem totalP_full (conv) : ∀ (ps : List PPost) (t : Amount) (m : Bool) (r : Amount × Bool), totalP conv t m ps = .ok r → (m = true ∨ r.2 = false) →
    (∀ p ∈ ps, p.quantity ≠ none) ∧ r.2 = m ∧ ∀ m', totalP conv t m' ps = .ok (r.1, m') := by
  intro ps
  induction ps with
  | nil => intro t m r h hm; simp only [totalP, Except.ok.injEq] at h; subst h; exact ⟨by simp, rfl, fun _ => rfl⟩
  | cons p ps ih =>
    intro t m r h hm
    unfold totalP at h
    cases hq : p.quantity with
    | none =>
      rw [hq] at h
      simp only [] at h
      cases m with
      | true => simp at h
      | false =>
        rw [if_neg (by decide)] at h
        have := (ih t true r h (.inl rfl)).2.1
        rcases hm with hm | hm
        · exact absurd hm (by decide)
        · rw [this] at hm; exact absurd hm (by decide)
    | some q =>
      rw [hq] at h
      simp only [] at h
      obtain ⟨t', h1, h2⟩ := bind_ok.mp h
      obtain ⟨a1, a2, a3⟩ := ih _ _ _ h2 hm
      refine ⟨?_, a2, ?_⟩
      · intro p' hp'
        rcases List.mem_cons.mp hp' with rfl | hp'
        · rw [hq]; simp
        · exact a1 p' hp'
      · intro m'
        rw [totalP, hq]
        simp only [h1, Except.bind]
        exact a3 m'

theorem fillQuantity_some {a : Amount} {p : PPost} (h : p.quantity ≠ none) : fillQuantity a p = p := by
  unfold fillQuantity
  cases hq : p.quantity with
  | none => exact absurd hq h
  | some q => rfl

theorem map_fill_id {a : Amount} {ps : List PPost} (h : ∀ p ∈ ps, p.quantity ≠ none) : ps.map (fillQuantity a) = ps := by
  conv_rhs => rw [← List.map_id ps]
  exact List.map_congr_left (fun p hp => fillQuantity_some (h p hp))

/-- The total with the missing quantity filled in. -/
theorem totalP_fill (conv) (a : Amount) : ∀ (ps : List PPost) (t : Amount) (r : Amount), a.com = t.com → totalP conv t false ps = .ok (r, true) →
    totalP conv t false (ps.map (fillQuantity a)) = .ok (⟨r.int + a.int, r.com⟩, false) := by
  intro ps
  induction ps with
  | nil => intro t r _ h; simp [totalP] at h
  | cons p ps ih =>
    intro t r ha h
    unfold totalP at h
    cases hq : p.quantity with
    | none =>
      rw [hq] at h
      simp only [] at h
      rw [if_neg (by decide)] at h
      obtain ⟨a1, _, a3⟩ := totalP_full conv ps t true (r, true) h (.inl rfl)
      rw [List.map_cons, map_fill_id a1]
      have hf : (fillQuantity a p).quantity = some a := by unfold fillQuantity; rw [hq]
      rw [totalP, hf]
      simp only []
      rw [addIn_same conv t a ha.symm]
      show totalP conv ⟨t.int + a.int, t.com⟩ false ps = _
      exact totalP_shift conv ps t false (r, false) a.int (a3 false)
    | some q =>
      rw [hq] at h
      simp only [] at h
      obtain ⟨t', h1, h2⟩ := bind_ok.mp h
      rw [List.map_cons, fillQuantity_some (by rw [hq]; simp), totalP, hq]
      simp only [h1, Except.bind]
      refine ih t' r ?_ h2
      rw [checkNoError_ok, addIn_delta] at h1
      obtain ⟨x, _, h3⟩ := bind_ok.mp h1
      cases h3; exact ha

theorem placePosting_ok {env : Env} {p p' : PPost} : placePosting env p = .ok p' ↔ ∃ a, env.find p.account = .ok a ∧ p' = { p with account := a } := by
  unfold placePosting
  cases h : env.find p.account with
  | error e => simp [Except.bind]
  | ok a => simp [Except.bind, eq_comm]

theorem fill_account (a : Amount) (p : PPost) : (fillQuantity a p).account = p.account := by
  unfold fillQuantity; cases p.quantity <;> rfl

theorem fill_isSome (a : Amount) (p : PPost) : (fillQuantity a p).quantity.isSome = true := by
  unfold fillQuantity
  cases h : p.quantity with
  | none => rfl
  | some q => simp [h]

theorem mapM_placed {env : Env} : ∀ {ps : List PPost}, (∀ p ∈ ps, env.find p.account = .ok p.account) → ps.mapM (placePosting env) = .ok ps := by
  intro ps h
  rw [mapM_ok]
  induction ps with
  | nil => exact .nil
  | cons p ps ih =>
    refine .cons ?_ (ih (fun p hp => h p (by simp [hp])))
    rw [placePosting_ok]
    exact ⟨p.account, h p (by simp), rfl⟩

/-- Resolving resolved postings changes nothing. -/
theorem resolvePostings_idem {env : Env} {l ps : List PPost} (henv : ∀ n a, env.find n = .ok a → env.find a = .ok a)
    (h : resolvePostings env l = .ok ps) : resolvePostings env ps = .ok ps := by
  unfold resolvePostings at h
  obtain ⟨qs, h1, h2⟩ := bind_ok.mp h
  have hq : ∀ q ∈ qs, env.find q.account = .ok q.account := by
    intro q hq
    obtain ⟨p, _, hp⟩ := forall2_mem_right ((mapM_ok _ _ _).mp h1) q hq
    obtain ⟨a, ha, rfl⟩ := placePosting_ok.mp hp
    exact henv _ _ ha
  by_cases hm : mixedComs (qs.map (fun p => env.comOf p.account)) = true
  · rw [if_pos hm] at h2
    by_cases ha : qs.all (fun p => p.quantity.isSome) = true
    · rw [if_pos ha] at h2; cases h2
      unfold resolvePostings
      rw [mapM_placed hq]
      simp only [Except.bind]
      rw [if_pos hm, if_pos ha]
    · rw [if_neg ha] at h2; cases h2
  · rw [if_neg hm] at h2
    cases hl : (qs.map (fun p => env.comOf p.account)).getLast? with
    | none =>
      rw [hl] at h2; cases h2
      unfold resolvePostings
      rw [mapM_placed hq]
      simp only [Except.bind]
      rw [if_neg hm, hl]
    | some c =>
      rw [hl] at h2
      simp only [] at h2
      obtain ⟨r, h3, h4⟩ := bind_ok.mp h2
      by_cases hr : r.2 = true
      · rw [if_pos hr] at h4; cases h4
        have hacc : (qs.map (fillQuantity r.1.negated)).map (fun p => env.comOf p.account) = qs.map (fun p => env.comOf p.account) := by
          rw [List.map_map]
          refine List.map_congr_left ?_
          intro q _
          simp only [Function.comp_apply, fill_account]
        unfold resolvePostings
        rw [mapM_placed (by
          intro p hp
          obtain ⟨q, hqm, rfl⟩ := List.mem_map.mp hp
          rw [fill_account]; exact hq q hqm)]
        simp only [Except.bind]
        rw [hacc, if_neg hm, hl]
        simp only []
        have := totalP_fill env.conv r.1.negated qs (zeroAmount c) r.1 (totalP_com _ _ _ _ _ h3) (by rw [← hr]; exact h3)
        rw [this]
        simp [Amount.negated]
      · rw [if_neg hr] at h4
        by_cases hz : r.1.int = 0
        · rw [if_pos hz] at h4; cases h4
          unfold resolvePostings
          rw [mapM_placed hq]
          simp only [Except.bind]
          rw [if_neg hm, hl]
          simp only [h3]
          rw [if_neg hr, if_pos hz]
        · rw [if_neg hz] at h4; cases h4

theorem pLess_strictWeak : StrictWeak pLess where
  asymm := by
    intro a b
    simp only [pLess]
    cases assertsP a <;> cases assertsP b <;> simp <;> omega
  negTrans := by
    intro a b c
    simp only [pLess]
    cases assertsP a <;> cases assertsP b <;> cases assertsP c <;> simp <;> omega

theorem pLess_trim (b : Bool) (t u : PTxn) : pLess (trimTxn b t) (trimTxn b u) = pLess t u := by
  unfold trimTxn; cases b <;> rfl

/-! ### trimWS -/

def Word (w : Str) : Prop := w ≠ [] ∧ ∀ x ∈ w, isSpaceU x = false

theorem scanWords_words : ∀ (s acc : Str), (∀ x ∈ acc, isSpaceU x = false) → ∀ w ∈ scanWords acc s, Word w := by
  intro s
  induction s with
  | nil =>
    intro acc h w hw
    unfold scanWords at hw
    by_cases ha : acc = []
    · simp [ha] at hw
    · rw [if_neg ha] at hw; simp at hw; subst hw; exact ⟨ha, h⟩
  | cons c s ih =>
    intro acc h w hw
    unfold scanWords at hw
    by_cases hc : isSpaceU c = true
    · rw [if_pos hc] at hw
      by_cases ha : acc = []
      · rw [if_pos ha] at hw; exact ih [] (by simp) w hw
      · rw [if_neg ha] at hw
        rcases List.mem_cons.mp hw with rfl | hw
        · exact ⟨ha, h⟩
        · exact ih [] (by simp) w hw
    · rw [if_neg hc] at hw
      refine ih _ ?_ w hw
      intro x hx
      rcases List.mem_append.mp hx with hx | hx
      · exact h x hx
      · simp at hx; subst hx; simpa using hc

theorem scanWords_word : ∀ (w acc s : Str), (∀ x ∈ w, isSpaceU x = false) → scanWords acc (w ++ s) = scanWords (acc ++ w) s := by
  intro w
  induction w with
  | nil => intro acc s _; simp
  | cons x w ih =>
    intro acc s h
    rw [List.cons_append, scanWords, if_neg (by simp [h x (by simp)]), ih _ _ (fun x hx => h x (by simp [hx]))]
    simp

theorem scanWords_join : ∀ (ws : List Str), (∀ w ∈ ws, Word w) → scanWords [] (joinWith [' '] ws) = ws := by
  intro ws
  induction ws with
  | nil => intro _; rfl
  | cons w ws ih =>
    intro h
    obtain ⟨h1, h2⟩ := h w (by simp)
    cases ws with
    | nil =>
      have : joinWith [' '] [w] = w ++ [] := by simp [joinWith]
      rw [this, scanWords_word w [] [] h2, List.nil_append, scanWords, if_neg h1]
    | cons v vs =>
      have : joinWith [' '] (w :: v :: vs) = w ++ ' ' :: joinWith [' '] (v :: vs) := by simp [joinWith]
      rw [this, scanWords_word w [] _ h2, List.nil_append, scanWords, if_pos (by decide), if_neg h1, ih (fun w hw => h w (by simp [hw]))]

theorem trimWS_idem (s : Str) : trimWS (trimWS s) = trimWS s := by
  unfold trimWS
  rw [scanWords_join _ (scanWords_words s [] (by simp))]

theorem trimTxn_idem (b : Bool) (t : PTxn) : trimTxn b (trimTxn b t) = trimTxn b t := by
  unfold trimTxn
  cases b with
  | false => rfl
  | true => simp [trimWS_idem]

end Verif
