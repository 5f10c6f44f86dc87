import Verif.Props.WebSearch
import Verif.Lemmas.Sort
import Verif.Lemmas.Amount
import Verif.Lemmas.Ledger
import Mathlib.Tactic.Linarith
import Mathlib.Tactic.Ring
import Mathlib.Tactic.Zify
import Mathlib.Algebra.Order.Ring.Abs
/-!
# C114, C115: conversions over chains of prices
-/
namespace Verif

/-! ## Specification -/

/-- `a` has a price in `b`. -/
def PriceLink (all : List WPrice) (a b : Com) : Prop := ∃ p ∈ all, p.com = a ∧ p.value.com = b

/-- `n` prices, each in the commodity of the next, lead from `a` to `b`. -/
inductive LinkChain (all : List WPrice) (a : Com) : Nat → Com → Prop
  | start : LinkChain all a 0 a
  | step {n : Nat} {b c : Com} : LinkChain all a n b → PriceLink all b c → LinkChain all a (n + 1) c

/-- Every commodity that occurs in a price. -/
def Covers (U : List Com) (all : List WPrice) : Prop := ∀ p ∈ all, p.com ∈ U ∧ p.value.com ∈ U

/-- The states of the page: the maps built from the prices, changed by earlier searches. -/
inductive Reached (all : List WPrice) : ConvMap → Prop
  | fresh : Reached all (directMap all)
  | search {m m' : ConvMap} {fuel : Nat} {src dst : Com} {r : Option WConv} : Reached all m →
      findConversion m fuel src dst = .ok (r, m') → Reached all m'

/-! ## The direct conversions -/

/-- The entries made from prices. -/
def directs (l : List (Com × WConv)) : List (Com × WConv) := l.filter (fun e => decide (e.2.steps = 1))

/-- Two states with the same direct conversions. -/
def SameDirects (m m' : ConvMap) : Prop := ∀ c, directs (m c) = directs (m' c)

theorem directs_mem {l : List (Com × WConv)} {e : Com × WConv} : e ∈ directs l ↔ e ∈ l ∧ e.2.steps = 1 := by
  unfold directs; simp

theorem SameDirects.linked {m m' : ConvMap} (h : SameDirects m m') (a b : Com) : HasConv m a b ↔ HasConv m' a b := by
  unfold HasConv
  constructor <;> rintro ⟨cv, h1, h2⟩
  · have := directs_mem.mpr ⟨h1, h2⟩; rw [h a] at this; exact ⟨cv, directs_mem.mp this⟩
  · have := directs_mem.mpr ⟨h1, h2⟩; rw [← h a] at this; exact ⟨cv, directs_mem.mp this⟩

theorem pushAll_directs (path : List WConv) : ∀ (es : List (Com × WConv)) (q : List (Com × List WConv)) (v : List Com),
    pushAll path es q v = pushAll path (directs es) q v := by
  intro es
  induction es with
  | nil => intro q v; rfl
  | cons e es ih =>
    intro q v
    obtain ⟨c2, cv⟩ := e
    have hp := steps_pos cv
    by_cases hs : cv.steps = 1
    · have hd : directs ((c2, cv) :: es) = (c2, cv) :: directs es := by
        unfold directs; rw [List.filter_cons_of_pos]; simpa using hs
      rw [hd]
      unfold pushAll
      split
      · exact ih _ _
      · exact ih _ _
    · have hd : directs ((c2, cv) :: es) = directs es := by
        unfold directs; rw [List.filter_cons_of_neg]; simpa using hs
      rw [hd, ← ih q v]
      conv_lhs => unfold pushAll
      rw [if_pos (Or.inl (by omega))]

/-- What the search sees of an entry. -/
def seen (l : List (Com × WConv)) (dst : Com) : Option WConv :=
  match jsGet l dst with
  | some cv => if cv.steps = 1 then some cv else none
  | none => none

theorem seen_iff {l : List (Com × WConv)} (hn : (l.map (·.1)).Nodup) (dst : Com) (cv : WConv) : seen l dst = some cv ↔ (dst, cv) ∈ directs l := by
  unfold seen
  rw [directs_mem]
  constructor
  · intro h
    cases hg : jsGet l dst with
    | none => rw [hg] at h; simp at h
    | some w =>
      rw [hg] at h
      simp only at h
      by_cases hs : w.steps = 1
      · rw [if_pos hs] at h; cases h; exact ⟨jsGet_mem hg, hs⟩
      · rw [if_neg hs] at h; cases h
  · rintro ⟨h1, h2⟩
    rw [jsGet_of_mem hn h1]
    simp only at h2 ⊢
    rw [if_pos h2]

theorem seen_same {m m' : ConvMap} (hm : MapOK m) (hm' : MapOK m') (h : SameDirects m m') (c dst : Com) : seen (m c) dst = seen (m' c) dst := by
  apply Option.ext
  intro cv
  have h1 := seen_iff (hm.keys c) dst cv
  have h2 := seen_iff (hm'.keys c) dst cv
  rw [h1, h2, h c]

theorem bfs_cons (m : ConvMap) (dst : Com) (fuel : Nat) (c : Com) (path : List WConv) (q : List (Com × List WConv)) (v : List Com) :
    bfs m dst (fuel + 1) ((c, path) :: q) v =
      match seen (m c) dst with
      | some cv => some (some (cv :: path))
      | none => bfs m dst fuel (pushAll path (m c) q v).1 (pushAll path (m c) q v).2 := by
  conv_lhs => unfold bfs
  unfold seen
  cases jsGet (m c) dst with
  | none => rfl
  | some cv =>
    dsimp only
    by_cases hs : cv.steps = 1
    · rw [if_pos hs, if_pos hs]
    · rw [if_neg hs, if_neg hs]

theorem bfs_same {m m' : ConvMap} (hm : MapOK m) (hm' : MapOK m') (h : SameDirects m m') (dst : Com) : ∀ (fuel : Nat) (q : List (Com × List WConv)) (v : List Com),
    bfs m dst fuel q v = bfs m' dst fuel q v := by
  intro fuel
  induction fuel with
  | zero => intro q v; rfl
  | succ fuel ih =>
    intro q v
    cases q with
    | nil => rfl
    | cons e q =>
      obtain ⟨c, path⟩ := e
      rw [bfs_cons, bfs_cons, seen_same hm hm' h c dst, pushAll_directs path (m c), h c, ← pushAll_directs path (m' c)]
      cases seen (m' c) dst with
      | some cv => rfl
      | none => exact ih _ _

/-! ## Composing -/

/-- What a path (last price first) is composed to. -/
def composed : WConv → List WConv → WConv
  | prev, [] => prev
  | prev, c :: rest => composed (.comp c prev) rest

theorem composed_steps : ∀ (rest : List WConv) (prev : WConv), (∀ cv ∈ rest, cv.steps = 1) → (composed prev rest).steps = prev.steps + rest.length := by
  intro rest
  induction rest with
  | nil => intro prev _; rfl
  | cons c rest ih =>
    intro prev h
    unfold composed
    rw [ih _ (fun cv hcv => h cv (List.mem_cons_of_mem _ hcv))]
    have := h c List.mem_cons_self
    simp only [WConv.steps, List.length_cons]; omega

theorem composed_dst : ∀ (rest : List WConv) (prev : WConv), (composed prev rest).dst = prev.dst := by
  intro rest
  induction rest with
  | nil => intro prev; rfl
  | cons c rest ih => intro prev; unfold composed; rw [ih]; rfl

theorem RevPath.steps {m : ConvMap} {src c : Com} {p : List WConv} (h : RevPath m src c p) : ∀ cv ∈ p, cv.steps = 1 := by
  induction h with
  | nil => simp
  | cons _ _ h2 ih =>
    intro cv hcv
    rcases List.mem_cons.mp hcv with rfl | hcv
    · exact h2
    · exact ih cv hcv

theorem jsSet_keys (l : List (Com × WConv)) (k : Com) (v : WConv) (hn : (l.map (·.1)).Nodup) : ((jsSet l k v).map (·.1)).Nodup := by
  unfold jsSet
  by_cases h : l.any (fun e => decide (e.1 = k)) = true
  · rw [if_pos h, List.map_map]
    have : (fun e : Com × WConv => e.1) ∘ (fun e : Com × WConv => if e.1 = k then (k, v) else e) = (fun e => e.1) := by
      funext e
      simp only [Function.comp]
      by_cases he : e.1 = k
      · rw [if_pos he]; exact he.symm
      · rw [if_neg he]
    rw [this]; exact hn
  · rw [if_neg h, List.map_append, List.nodup_append]
    refine ⟨hn, by simp, ?_⟩
    intro x hx y hy hxy
    simp only [List.map_cons, List.map_nil, List.mem_singleton] at hy
    subst hxy
    apply h
    obtain ⟨e, he, rfl⟩ := List.mem_map.mp hx
    rw [List.any_eq_true]
    exact ⟨e, he, by simpa using hy⟩

theorem jsSet_mem {l : List (Com × WConv)} {k : Com} {v : WConv} {e : Com × WConv} (h : e ∈ jsSet l k v) : e = (k, v) ∨ e ∈ l := by
  unfold jsSet at h
  split at h
  · obtain ⟨x, hx, rfl⟩ := List.mem_map.mp h
    by_cases hk : x.1 = k
    · rw [if_pos hk]; exact Or.inl rfl
    · rw [if_neg hk]; exact Or.inr hx
  · rcases List.mem_append.mp h with h | h
    · exact Or.inr h
    · rw [List.mem_singleton] at h; exact Or.inl h

theorem jsSet_directs (l : List (Com × WConv)) (k : Com) (v : WConv) (hv : v.steps ≠ 1) (hl : ∀ cv, (k, cv) ∈ l → cv.steps ≠ 1) :
    directs (jsSet l k v) = directs l := by
  unfold jsSet
  split
  · clear * - hv hl
    unfold directs
    induction l with
    | nil => rfl
    | cons e l ih =>
      have ih := ih (fun cv h => hl cv (List.mem_cons_of_mem _ h))
      rw [List.map_cons]
      by_cases he : e.1 = k
      · rw [if_pos he, List.filter_cons_of_neg (by simpa using hv), List.filter_cons_of_neg, ih]
        have := hl e.2 (by rw [← he]; exact List.mem_cons_self)
        simpa using this
      · rw [if_neg he, List.filter_cons, List.filter_cons, ih]
  · unfold directs
    rw [List.filter_append, List.filter_cons_of_neg (by simpa using hv)]
    simp

theorem put_ok {m : ConvMap} (hm : MapOK m) {x : WConv} : MapOK (m.put x.src x.dst x) := by
  constructor
  · intro c
    unfold ConvMap.put
    split
    · exact jsSet_keys _ _ _ (hm.keys _)
    · exact hm.keys c
  · intro c e he
    unfold ConvMap.put at he
    split at he
    · rename_i hc
      rcases jsSet_mem he with rfl | he
      · exact ⟨hc.symm, rfl⟩
      · rw [hc]; exact hm.ends _ e he
    · exact hm.ends c e he

theorem put_same {m : ConvMap} {x : WConv} (hx : x.steps ≠ 1) (hl : ¬ HasConv m x.src x.dst) : SameDirects (m.put x.src x.dst x) m := by
  intro c
  unfold ConvMap.put
  split
  · rename_i hc
    subst hc
    apply jsSet_directs _ _ _ hx
    intro cv hcv hs
    exact hl ⟨cv, hcv, hs⟩
  · rfl

theorem composeAll_spec {m0 : ConvMap} (hm0 : MapOK m0) {src dst : Com} : ∀ (rest : List WConv) (prev : WConv) (m : ConvMap),
    RevPath m0 src prev.src rest → prev.dst = dst → (∀ cv ∈ rest, ¬ HasConv m0 cv.src dst) → MapOK m → SameDirects m m0 →
    ∃ m', composeAll prev rest m = .ok (composed prev rest, m') ∧ MapOK m' ∧ SameDirects m' m0 ∧ (composed prev rest).src = src := by
  intro rest
  induction rest with
  | nil =>
    intro prev m hp _ _ h1 h2
    refine ⟨m, rfl, h1, h2, ?_⟩
    cases hp
    rfl
  | cons c rest ih =>
    intro prev m hp hd hnl hok hsame
    have aux : ∀ {x : Com} {l : List WConv}, RevPath m0 src x l → x = prev.src → l = c :: rest →
        RevPath m0 src c.src rest ∧ c.dst = prev.src ∧ c.steps = 1 := by
      intro x l h hx hl
      cases h with
      | nil => cases hl
      | @cons a y cv rest' h1 h2 h3 =>
        cases hl
        obtain ⟨g1, g2⟩ := hm0.ends a _ h2
        simp only at g1 g2
        refine ⟨by rw [g1]; exact h1, by rw [g2, hx], h3⟩
    obtain ⟨hrest, hcd, hcs⟩ := aux hp rfl rfl
    have hcomp : composeConv c prev = .ok (.comp c prev) := by
      unfold composeConv
      rw [if_neg]
      rintro (h | h)
      · omega
      · exact h hcd
    have hps := steps_pos prev
    have hst : (WConv.comp c prev).steps ≠ 1 := by
      have := steps_pos c
      simp only [WConv.steps]; omega
    have hxs : (WConv.comp c prev).src = c.src := rfl
    have hxd : (WConv.comp c prev).dst = dst := hd
    obtain ⟨m', e1, e2, e3, e4⟩ := ih (.comp c prev) (m.put (WConv.comp c prev).src (WConv.comp c prev).dst (.comp c prev)) hrest hxd
      (fun cv hcv => hnl cv (List.mem_cons_of_mem _ hcv)) (put_ok hok)
      (by
        have hl : ¬ HasConv m (WConv.comp c prev).src (WConv.comp c prev).dst := by
          rw [hxs, hxd, hsame.linked]
          exact hnl c List.mem_cons_self
        intro z
        rw [put_same hst hl z, hsame z])
    refine ⟨m', ?_, e2, e3, e4⟩
    unfold composeAll
    rw [hcomp]
    exact e1

/-! ## One search -/

/-- The conversion returned: from `src` to `dst` over as few prices as possible; nothing is returned when no chain exists. -/
def Answer (all : List WPrice) (src dst : Com) : Option WConv → Prop
  | none => ∀ n, ¬ LinkChain all src (n + 1) dst
  | some cv => cv.src = src ∧ cv.dst = dst ∧ LinkChain all src cv.steps dst ∧ ∀ n, LinkChain all src (n + 1) dst → cv.steps ≤ n + 1

theorem firsts_mem (c : Com) : ∀ l : List Com, c ∈ firsts l ↔ c ∈ l := by
  intro l
  induction l with
  | nil => simp [firsts]
  | cons d l ih =>
    unfold firsts
    by_cases h : c = d
    · simp [h]
    · simp [h, ih]

theorem firsts_nodup : ∀ l : List Com, (firsts l).Nodup := by
  intro l
  induction l with
  | nil => simp [firsts]
  | cons d l ih =>
    unfold firsts
    rw [List.nodup_cons]
    exact ⟨by simp, ih.filter _⟩

theorem directMap_mem (all : List WPrice) (s : Com) (e : Com × WConv) : e ∈ directMap all s ↔ PriceLink all s e.1 ∧ e.2 = .direct s e.1 := by
  unfold directMap PriceLink
  rw [List.mem_map]
  have hx : ∀ t, t ∈ firsts ((stableSort (fun p q : WPrice => decide (p.time < q.time)) (all.filter (fun p => decide (p.com = s)))).map (·.value.com)) ↔
      ∃ p ∈ all, p.com = s ∧ p.value.com = t := by
    intro t
    rw [firsts_mem, List.mem_map]
    constructor
    · rintro ⟨p, hp, rfl⟩
      have := (stableSort_perm _ _).mem_iff.mp hp
      rw [List.mem_filter] at this
      exact ⟨p, this.1, by simpa using this.2, rfl⟩
    · rintro ⟨p, hp, h1, h2⟩
      refine ⟨p, (stableSort_perm _ _).mem_iff.mpr ?_, h2⟩
      rw [List.mem_filter]; exact ⟨hp, by simpa using h1⟩
  constructor
  · rintro ⟨t, ht, rfl⟩; exact ⟨(hx t).mp ht, rfl⟩
  · rintro ⟨h1, h2⟩
    refine ⟨e.1, (hx e.1).mpr h1, ?_⟩
    rw [← h2]

theorem directMap_ok (all : List WPrice) : MapOK (directMap all) := by
  constructor
  · intro c
    unfold directMap
    rw [List.map_map]
    have : ((fun e : Com × WConv => e.1) ∘ fun t => (t, WConv.direct c t)) = id := rfl
    rw [this, List.map_id]
    exact firsts_nodup _
  · intro c e he
    rw [directMap_mem] at he
    rw [he.2]; exact ⟨rfl, rfl⟩

theorem directMap_linked (all : List WPrice) (a b : Com) : HasConv (directMap all) a b ↔ PriceLink all a b := by
  unfold HasConv
  constructor
  · rintro ⟨cv, h, _⟩; exact ((directMap_mem all a _).mp h).1
  · intro h; exact ⟨.direct a b, (directMap_mem all a _).mpr ⟨h, rfl⟩, rfl⟩

theorem chain_iff {m : ConvMap} {all : List WPrice} (h : ∀ a b, HasConv m a b ↔ PriceLink all a b) (a : Com) (n : Nat) (b : Com) :
    PriceChain m a n b ↔ LinkChain all a n b := by
  constructor
  · intro hc
    induction hc with
    | start => exact .start
    | step _ hl ih => exact .step ih ((h _ _).mp hl)
  · intro hc
    induction hc with
    | start => exact .start
    | step _ hl ih => exact .step ih ((h _ _).mpr hl)

/-- A state of the page: well formed, with the direct conversions of the prices. -/
def PageState (all : List WPrice) (m : ConvMap) : Prop := MapOK m ∧ SameDirects m (directMap all)

theorem PageState.linked {all : List WPrice} {m : ConvMap} (h : PageState all m) (a b : Com) : HasConv m a b ↔ PriceLink all a b := by
  rw [h.2.linked, directMap_linked]

/-- Made of prices that exist. -/
def Solid (all : List WPrice) : WConv → Prop
  | .direct s t => PriceLink all s t
  | .comp c1 c2 => Solid all c1 ∧ Solid all c2

theorem composed_solid {all : List WPrice} : ∀ (rest : List WConv) (prev : WConv), Solid all prev → (∀ cv ∈ rest, Solid all cv) →
    Solid all (composed prev rest) := by
  intro rest
  induction rest with
  | nil => intro prev h _; exact h
  | cons c rest ih =>
    intro prev h hr
    exact ih _ ⟨hr c List.mem_cons_self, h⟩ (fun cv hcv => hr cv (List.mem_cons_of_mem _ hcv))

theorem path_solid {all : List WPrice} {m : ConvMap} (h : PageState all m) {src c : Com} {p : List WConv} (hp : RevPath m src c p) :
    ∀ cv ∈ p, Solid all cv := by
  induction hp with
  | nil => simp
  | @cons a c cv rest _ h2 h3 ih =>
    intro x hx
    rcases List.mem_cons.mp hx with rfl | hx
    · have := directs_mem.mpr ⟨h2, h3⟩
      rw [h.2 a] at this
      have := (directMap_mem all a _).mp (directs_mem.mp this).1
      simp only at this
      rw [this.2]; exact this.1
    · exact ih x hx

/-- What `findConversion` does, whatever the bound on its rounds. -/
theorem find_state {all : List WPrice} {m : ConvMap} (h : PageState all m) {p : List WConv} {src dst : Com} (hne : p ≠ [])
    (hp : RevPath m src dst p) (hnl : ∀ cv ∈ p.tail, ¬ HasConv m cv.src dst) :
    ∃ cv rest m', p = cv :: rest ∧ composeAll cv rest m = .ok (composed cv rest, m') ∧ PageState all m' ∧ (composed cv rest).src = src ∧
      (composed cv rest).dst = dst ∧ (composed cv rest).steps = p.length ∧ Solid all (composed cv rest) := by
  have hsol := path_solid h hp
  cases hp with
  | nil => exact absurd rfl hne
  | @cons a c cv rest h1 h2 h3 =>
    obtain ⟨g1, g2⟩ := h.1.ends a _ h2
    simp only at g1 g2
    obtain ⟨m', e1, e2, e3, e4⟩ := composeAll_spec (m0 := m) h.1 (src := src) (dst := dst) rest cv m (by rw [g1]; exact h1) g2 hnl h.1 (fun _ => rfl)
    refine ⟨cv, rest, m', rfl, e1, ⟨e2, fun z => by rw [e3 z, h.2 z]⟩, e4, by rw [composed_dst]; exact g2, ?_⟩
    refine ⟨by rw [composed_steps _ _ h1.steps, h3, List.length_cons]; omega, ?_⟩
    exact composed_solid _ _ (hsol _ List.mem_cons_self) (fun x hx => hsol x (List.mem_cons_of_mem _ hx))

theorem fuel_mono (m : ConvMap) (dst : Com) : ∀ (fuel : Nat) (q : List (Com × List WConv)) (v : List Com) (r : Option (List WConv)),
    bfs m dst fuel q v = some r → bfs m dst (fuel + 1) q v = some r := by
  intro fuel
  induction fuel with
  | zero => intro q v r h; simp [bfs] at h
  | succ fuel ih =>
    intro q v r h
    cases q with
    | nil => simpa [bfs] using h
    | cons e q =>
      obtain ⟨c, path⟩ := e
      rw [bfs_cons] at h ⊢
      cases hs : seen (m c) dst with
      | some cv => rw [hs] at h; exact h
      | none => rw [hs] at h; exact ih _ _ _ h

theorem fuel_more (m : ConvMap) (dst : Com) (q : List (Com × List WConv)) (v : List Com) (r : Option (List WConv)) (fuel k : Nat)
    (h : bfs m dst fuel q v = some r) : bfs m dst (fuel + k) q v = some r := by
  induction k with
  | zero => exact h
  | succ k ih => exact fuel_mono _ _ _ _ _ _ ih

/-- The commodities of the prices. -/
def allComs (all : List WPrice) : List Com := all.map (·.com) ++ all.map (·.value.com)

theorem allComs_covers (all : List WPrice) : Covers (allComs all) all := by
  intro p hp
  unfold allComs
  exact ⟨List.mem_append_left _ (List.mem_map_of_mem hp), List.mem_append_right _ (List.mem_map_of_mem hp)⟩

theorem bfs_state {all : List WPrice} {m : ConvMap} {U : List Com} (h : PageState all m) (hU : Covers U all) {src dst : Com} (hs : src ∈ U) {fuel : Nat}
    (hf : 2 * U.length < fuel) : ∃ r, bfs m dst fuel [(src, [])] [src] = some r ∧ SearchResult m src dst r := by
  have hcl : ClosedUnder (directMap all) U := by
    intro c _ e he
    obtain ⟨⟨p, hp, _, h2⟩, _⟩ := (directMap_mem all c e).mp he
    rw [← h2]; exact (hU p hp).2
  obtain ⟨r, e1, e2⟩ := bfs_spec (directMap all) (directMap_ok all) dst src U hcl hs fuel hf
  refine ⟨r, by rw [bfs_same h.1 (directMap_ok all) h.2]; exact e1, ?_⟩
  have hch : ∀ n c, PriceChain (directMap all) src n c ↔ PriceChain m src n c := by
    intro n c
    rw [chain_iff (directMap_linked all), chain_iff h.linked]
  have hpath : ∀ {x : Com} {p : List WConv}, RevPath (directMap all) src x p → RevPath m src x p := by
    intro x p hp
    induction hp with
    | nil => exact .nil
    | @cons a c cv rest _ h2 h3 ih =>
      have := directs_mem.mpr ⟨h2, h3⟩
      rw [← h.2 a] at this
      exact .cons ih (directs_mem.mp this).1 h3
  cases r with
  | none => intro n hc; exact e2 n ((hch _ _).mpr hc)
  | some p =>
    obtain ⟨g1, g2, g3, g4⟩ := e2
    refine ⟨g1, hpath g2, fun n hc => g3 n ((hch _ _).mpr hc), ?_⟩
    intro cv hcv
    rw [h.2.linked]
    exact g4 cv hcv

theorem find_spec {all : List WPrice} {m : ConvMap} {U : List Com} (h : PageState all m) (hU : Covers U all) {src dst : Com} (hs : src ∈ U) {fuel : Nat}
    (hf : 2 * U.length < fuel) : ∃ r m', findConversion m fuel src dst = .ok (r, m') ∧ PageState all m' ∧ Answer all src dst r ∧
      ∀ cv, r = some cv → Solid all cv := by
  obtain ⟨r, e1, e2⟩ := bfs_state (dst := dst) h hU hs hf
  unfold findConversion
  rw [e1]
  cases r with
  | none =>
    refine ⟨none, m, rfl, h, ?_, by intro cv hcv; cases hcv⟩
    intro n hc
    exact e2 n ((chain_iff h.linked _ _ _).mpr hc)
  | some p =>
    obtain ⟨g1, g2, g3, g4⟩ := e2
    obtain ⟨cv, rest, m', rfl, k1, k2, k3, k4, k5, k6⟩ := find_state h g1 g2 g4
    refine ⟨some (composed cv rest), m', by dsimp only; rw [k1]; rfl, k2, ⟨k3, k4, ?_, ?_⟩, by intro x hx; cases hx; exact k6⟩
    · rw [k5]; exact (chain_iff h.linked _ _ _).mp g2.chain
    · intro n hc
      rw [k5]; exact g3 n ((chain_iff h.linked _ _ _).mpr hc)

/-- The states reached are states of the page. -/
theorem reached_state {all : List WPrice} {m : ConvMap} (h : Reached all m) : PageState all m := by
  induction h with
  | fresh => exact ⟨directMap_ok all, fun _ => rfl⟩
  | @search m m' fuel src dst r _ hf ih =>
    unfold findConversion at hf
    cases hb : bfs m dst fuel [(src, [])] [src] with
    | none => rw [hb] at hf; cases hf
    | some o =>
      -- the same answer with enough rounds
      obtain ⟨r2, e1, e2⟩ := bfs_state (dst := dst) ih (U := src :: allComs all)
        (fun p hp => ⟨List.mem_cons_of_mem _ (allComs_covers all p hp).1, List.mem_cons_of_mem _ (allComs_covers all p hp).2⟩)
        List.mem_cons_self (fuel := 2 * (src :: allComs all).length + 1 + fuel) (by omega)
      have e3 := fuel_more m dst _ _ _ _ (2 * (src :: allComs all).length + 1) hb
      rw [Nat.add_comm] at e3
      rw [e3] at e1
      cases e1
      rw [hb] at hf
      cases o with
      | none => cases hf; exact ih
      | some p =>
        obtain ⟨g1, g2, g3, g4⟩ := e2
        obtain ⟨cv, rest, m2, rfl, k1, k2, _⟩ := find_state ih g1 g2 g4
        dsimp only at hf
        rw [k1] at hf
        cases hf
        exact k2

/-! ## C114 -/

/-- **C114** A search for a conversion ends; it returns a conversion over as few prices as possible, and nothing exactly when
the commodities are not connected by prices. The state after it is again one of the states of the page. -/
theorem C114_search (all : List WPrice) (m : ConvMap) (hm : Reached all m) (U : List Com) (hU : Covers U all) (src dst : Com) (hs : src ∈ U)
    (fuel : Nat) (hf : 2 * U.length < fuel) :
    ∃ r m', findConversion m fuel src dst = .ok (r, m') ∧ Reached all m' ∧ Answer all src dst r := by
  obtain ⟨r, m', e1, _, e2, _⟩ := find_spec (dst := dst) (reached_state hm) hU hs hf
  exact ⟨r, m', e1, .search hm e1, e2⟩

/-- **C114** What was converted before does not matter: the answer is that of a freshly loaded page. -/
theorem C114_history (all : List WPrice) (m : ConvMap) (hm : Reached all m) (fuel : Nat) (src dst : Com) :
    (findConversion m fuel src dst).map (·.1) = (findConversion (directMap all) fuel src dst).map (·.1) := by
  have hst := reached_state hm
  have hfr : PageState all (directMap all) := ⟨directMap_ok all, fun _ => rfl⟩
  unfold findConversion
  rw [bfs_same hst.1 (directMap_ok all) hst.2]
  cases hb : bfs (directMap all) dst fuel [(src, [])] [src] with
  | none => rfl
  | some o =>
    obtain ⟨r2, e1, e2⟩ := bfs_state (dst := dst) hst (U := src :: allComs all)
      (fun p hp => ⟨List.mem_cons_of_mem _ (allComs_covers all p hp).1, List.mem_cons_of_mem _ (allComs_covers all p hp).2⟩)
      List.mem_cons_self (fuel := 2 * (src :: allComs all).length + 1 + fuel) (by omega)
    obtain ⟨r3, e4, e5⟩ := bfs_state (dst := dst) hfr (U := src :: allComs all)
      (fun p hp => ⟨List.mem_cons_of_mem _ (allComs_covers all p hp).1, List.mem_cons_of_mem _ (allComs_covers all p hp).2⟩)
      List.mem_cons_self (fuel := 2 * (src :: allComs all).length + 1 + fuel) (by omega)
    have e3 := fuel_more (directMap all) dst _ _ _ _ (2 * (src :: allComs all).length + 1) hb
    rw [Nat.add_comm] at e3
    rw [bfs_same hst.1 (directMap_ok all) hst.2, e3] at e1
    rw [e3] at e4
    cases e1
    cases e4
    cases o with
    | none => rfl
    | some p =>
      obtain ⟨g1, g2, _, g4⟩ := e2
      obtain ⟨k1, k2, _, k4⟩ := e5
      obtain ⟨cv, rest, m2, hp, l1, _⟩ := find_state hst g1 g2 g4
      obtain ⟨cv', rest', m3, hp', l2, _⟩ := find_state hfr k1 k2 k4
      rw [hp] at hp'
      cases hp'
      subst hp
      dsimp only
      rw [l1, l2]
      rfl

theorem pricesOf_sorted (all : List WPrice) (s t : Com) : ByDate (wPricesOf all s t) := by
  unfold wPricesOf ByDate
  apply List.Pairwise.filter
  have := stableSort_sorted (fun p q : WPrice => decide (p.time < q.time)) (intLt_strictWeak.comap (fun p : WPrice => p.time))
    (all.filter (fun p => decide (p.com = s)))
  exact this.imp (fun h => by simpa using h)

theorem pricesOf_mem (all : List WPrice) (s t : Com) (p : WPrice) : p ∈ wPricesOf all s t ↔ p ∈ all ∧ p.com = s ∧ p.value.com = t := by
  unfold wPricesOf
  rw [List.mem_filter, (stableSort_perm _ _).mem_iff, List.mem_filter]
  simp [and_assoc]

theorem solid_value {all : List WPrice} {cv : WConv} (h : Solid all cv) (d : Int) : ∃ v, cv.value (wPricesOf all) d = .ok v := by
  induction cv with
  | direct s t =>
    obtain ⟨p, hp, h1, h2⟩ := h
    obtain ⟨q, _, hq⟩ := C113_total (wPricesOf all s t) (pricesOf_sorted all s t)
      (List.ne_nil_of_mem ((pricesOf_mem all s t p).mpr ⟨hp, h1, h2⟩)) d
    exact ⟨q.value, by unfold WConv.value; rw [hq]; rfl⟩
  | comp c1 c2 h1 h2 =>
    obtain ⟨v, hv⟩ := h1 h.1
    obtain ⟨w, hw⟩ := h2 h.2
    exact ⟨wConvertTo v w, by unfold WConv.value; rw [hv]; simp only [Except.bind]; rw [hw]⟩

/-- **C114** An amount that is not zero and not yet in the commodity can be converted exactly when prices connect the
commodities; otherwise the conversion throws. -/
theorem C114_converts (all : List WPrice) (m : ConvMap) (hm : Reached all m) (U : List Com) (hU : Covers U all) (a : Amount) (dst : Com)
    (hs : a.com ∈ U) (hd : a.com ≠ dst) (ha : a.int ≠ 0) (fuel : Nat) (hf : 2 * U.length < fuel) (date : Int) :
    (∃ b m', wConvert (wPricesOf all) m fuel dst a date = .ok (b, m')) ↔ ∃ n, LinkChain all a.com n dst := by
  obtain ⟨r, m', e1, _, e2, e3⟩ := find_spec (dst := dst) (reached_state hm) hU hs hf
  unfold wConvert
  rw [if_neg hd, if_neg ha, e1]
  simp only [Except.bind]
  cases r with
  | none =>
    constructor
    · rintro ⟨b, m2, h⟩; cases h
    · rintro ⟨n, h⟩
      cases n with
      | zero => cases h; exact absurd rfl hd
      | succ n => exact absurd h (e2 n)
  | some cv =>
    obtain ⟨v, hv⟩ := solid_value (e3 cv rfl) date
    dsimp only
    rw [hv]
    exact ⟨fun _ => ⟨_, e2.2.2.1⟩, fun _ => ⟨_, _, rfl⟩⟩

/-- **C114** The amount obtained does not depend on what was converted before. -/
theorem C114_convert_history (all : List WPrice) (m : ConvMap) (hm : Reached all m) (a : Amount) (dst : Com) (fuel : Nat) (date : Int) :
    (wConvert (wPricesOf all) m fuel dst a date).map (·.1) = (wConvert (wPricesOf all) (directMap all) fuel dst a date).map (·.1) := by
  unfold wConvert
  split
  · rfl
  split
  · rfl
  have h := C114_history all m hm fuel a.com dst
  cases h1 : findConversion m fuel a.com dst with
  | error e =>
    rw [h1] at h
    cases h2 : findConversion (directMap all) fuel a.com dst with
    | error e' => rw [h2] at h; cases h; rfl
    | ok r => rw [h2] at h; cases h
  | ok r =>
    rw [h1] at h
    cases h2 : findConversion (directMap all) fuel a.com dst with
    | error e' => rw [h2] at h; cases h
    | ok r' =>
      rw [h2] at h
      simp only [Except.map, Except.ok.injEq] at h
      simp only [Except.bind]
      rw [h]
      cases r'.1 with
      | none => rfl
      | some cv =>
        dsimp only
        cases cv.value (wPricesOf all) date with
        | error e => rfl
        | ok v => rfl

/-- **C114** Prices can be used both ways: the page loads every price with its reverse. -/
theorem C114_both_ways (ps all : List WPrice) (h : pushedPrices ps = .ok all) (a b : Com) :
    PriceLink all a b ↔ (∃ p ∈ ps, (p.com = a ∧ p.value.com = b) ∨ (p.com = b ∧ p.value.com = a)) := by
  induction ps generalizing all with
  | nil => cases h; simp [PriceLink]
  | cons p ps ih =>
    unfold pushedPrices at h
    obtain ⟨r, h1, h⟩ := bind_ok.mp h
    obtain ⟨rest, h2, h⟩ := bind_ok.mp h
    cases h
    have hr : r.com = p.value.com ∧ r.value.com = p.com := by
      unfold wReverse at h1
      obtain ⟨x, _, h1⟩ := bind_ok.mp h1
      cases h1
      exact ⟨rfl, rfl⟩
    have ih := ih rest h2
    unfold PriceLink at ih ⊢
    simp only [List.mem_cons, exists_eq_or_imp]
    rw [ih, hr.1, hr.2]
    constructor
    · rintro (h | h | h)
      · exact Or.inl (Or.inl h)
      · exact Or.inl (Or.inr ⟨h.2, h.1⟩)
      · exact Or.inr h
    · rintro ((h | h) | h)
      · exact Or.inl h
      · exact Or.inr (Or.inl ⟨h.2, h.1⟩)
      · exact Or.inr (Or.inr h)

/-! ## C115 -/

theorem ok_of_toOption {α : Type} {x : Except Fault α} {a : α} (h : x.toOption = some a) : x = .ok a := by
  cases x with
  | error e => cases h
  | ok b => cases h; rfl

/-- The exact value of `a`, over the prices `v` and `w`, is `a·v·w` over the powers of ten; `r` is within one smallest unit of
it. -/
def WithinOneUnit (a v w r : Amount) : Prop :=
  (r.int * (10 ^ a.com.decimals * 10 ^ v.com.decimals) - a.int * v.int * w.int).natAbs ≤ 10 ^ a.com.decimals * 10 ^ v.com.decimals

/-- **C115** Full statement: converting over two prices is exact up to one smallest unit of the result. -/
def C115_Statement : Prop :=
  ∀ (ps all : List WPrice), pushedPrices ps = .ok all → ∀ (x y z : Com) (v w : Amount) (t : Int), ⟨x, t, v⟩ ∈ ps → ⟨y, t, w⟩ ∈ ps → v.com = y → w.com = z →
    (∀ p ∈ ps, p = ⟨x, t, v⟩ ∨ p = ⟨y, t, w⟩) → x ≠ y → y ≠ z → x ≠ z →
    ∀ (a : Amount), a.com = x → (a.int * v.int * w.int).natAbs < 2 ^ 53 →
    ∀ (r : Amount) (m' : ConvMap), wConvert (wPricesOf all) (directMap all) 100 z a t = .ok (r, m') → WithinOneUnit a v w r

/-- **C115** False: the prices are multiplied first and the product is rounded to the smallest unit. With 0.01 Y for an X and 0.40 Z
for a Y, 1,000,000.00 X are worth 4,000.00 Z; the page shows 0. -/
theorem C115_rounded_violated : ¬ C115_Statement := by
  intro h
  let x : Com := { ref := 0, id := str "X", decimals := 2 }
  let y : Com := { ref := 1, id := str "Y", decimals := 2 }
  let z : Com := { ref := 2, id := str "Z", decimals := 2 }
  have hall : pushedPrices [⟨x, 0, ⟨1, y⟩⟩, ⟨y, 0, ⟨40, z⟩⟩] =
      .ok [⟨x, 0, ⟨1, y⟩⟩, ⟨y, 0, ⟨10000, x⟩⟩, ⟨y, 0, ⟨40, z⟩⟩, ⟨z, 0, ⟨250, y⟩⟩] := by
    apply ok_of_toOption
    decide +kernel
  have h2 := h _ _ hall x y z ⟨1, y⟩ ⟨40, z⟩ 0 (by simp) (by simp) rfl rfl (by simp) (by decide) (by decide) (by decide)
    ⟨100000000, x⟩ rfl (by decide)
  have hc : (wConvert (wPricesOf [⟨x, 0, ⟨1, y⟩⟩, ⟨y, 0, ⟨10000, x⟩⟩, ⟨y, 0, ⟨40, z⟩⟩, ⟨z, 0, ⟨250, y⟩⟩])
      (directMap [⟨x, 0, ⟨1, y⟩⟩, ⟨y, 0, ⟨10000, x⟩⟩, ⟨y, 0, ⟨40, z⟩⟩, ⟨z, 0, ⟨250, y⟩⟩]) 100 z ⟨100000000, x⟩ 0).toOption.map (·.1) = some ⟨0, z⟩ := by
    decide +kernel
  cases hw : wConvert (wPricesOf [⟨x, 0, ⟨1, y⟩⟩, ⟨y, 0, ⟨10000, x⟩⟩, ⟨y, 0, ⟨40, z⟩⟩, ⟨z, 0, ⟨250, y⟩⟩])
      (directMap [⟨x, 0, ⟨1, y⟩⟩, ⟨y, 0, ⟨10000, x⟩⟩, ⟨y, 0, ⟨40, z⟩⟩, ⟨z, 0, ⟨250, y⟩⟩]) 100 z ⟨100000000, x⟩ 0 with
  | error e => rw [hw] at hc; cases hc
  | ok r =>
    rw [hw] at hc
    have hr : r.1 = ⟨0, z⟩ := by simpa [Except.toOption] using hc
    have := h2 r.1 r.2 hw
    rw [hr] at this
    unfold WithinOneUnit at this
    exact absurd this (by decide)

/-- **C115** The error of a conversion over two prices is at most half a unit plus half a unit for every unit of the amount
converted. -/
theorem C115_bound_partial (a v w : Amount) (h1 : (v.int * w.int).natAbs < 2 ^ 53) (h2 : (a.int * (wConvertTo v w).int).natAbs < 2 ^ 53) :
    (2 * ((wConvertTo a (wConvertTo v w)).int * (10 ^ a.com.decimals * 10 ^ v.com.decimals) - a.int * v.int * w.int)).natAbs ≤
      10 ^ a.com.decimals * 10 ^ v.com.decimals + a.int.natAbs * 10 ^ v.com.decimals := by
  obtain ⟨_, g1⟩ := C112_convert v w h1
  obtain ⟨_, g2⟩ := C112_convert a (wConvertTo v w) h2
  unfold RoundedHalfUp at g1 g2
  generalize (wConvertTo a (wConvertTo v w)).int = r at *
  generalize (wConvertTo v w).int = c at *
  have hA : (0 : Int) < 10 ^ a.com.decimals := by positivity
  have hV : (0 : Int) < 10 ^ v.com.decimals := by positivity
  zify
  rw [mul_assoc a.int]
  generalize (10 : Int) ^ a.com.decimals = A at *
  generalize (10 : Int) ^ v.com.decimals = V at *
  generalize a.int = k at *
  generalize v.int * w.int = p at *
  have b1 : |2 * r * A - 2 * k * c| ≤ A := abs_le.mpr ⟨by linarith, by linarith⟩
  have b2 : |2 * c * V - 2 * p| ≤ V := abs_le.mpr ⟨by linarith, by linarith⟩
  have e : 2 * (r * (A * V) - k * p) = (2 * r * A - 2 * k * c) * V + k * (2 * c * V - 2 * p) := by ring
  rw [e]
  calc |(2 * r * A - 2 * k * c) * V + k * (2 * c * V - 2 * p)|
      ≤ |(2 * r * A - 2 * k * c) * V| + |k * (2 * c * V - 2 * p)| := abs_add_le _ _
    _ = |2 * r * A - 2 * k * c| * V + |k| * |2 * c * V - 2 * p| := by rw [abs_mul, abs_mul, abs_of_pos hV]
    _ ≤ A * V + |k| * V := add_le_add (mul_le_mul_of_nonneg_right b1 hV.le) (mul_le_mul_of_nonneg_left b2 (abs_nonneg _))

/-! ## A concrete page -/

/-- Three commodities connected by two prices, both ways. -/
def demoPrices : List WPrice :=
  let x : Com := { ref := 0, id := str "X", decimals := 2 }
  let y : Com := { ref := 1, id := str "Y", decimals := 2 }
  let z : Com := { ref := 2, id := str "Z", decimals := 2 }
  [⟨x, 0, ⟨200, y⟩⟩, ⟨y, 0, ⟨50, x⟩⟩, ⟨y, 0, ⟨40, z⟩⟩, ⟨z, 0, ⟨250, y⟩⟩]

/-- A search from X to Z finds the chain of two prices and leaves a changed state, which is `Reached`. -/
example : ((findConversion (directMap demoPrices) 20 { ref := 0, id := str "X", decimals := 2 } { ref := 2, id := str "Z", decimals := 2 }).toOption.bind
    (fun r => r.1.map (·.steps))) = some 2 ∧
    ((findConversion (directMap demoPrices) 20 { ref := 0, id := str "X", decimals := 2 } { ref := 2, id := str "Z", decimals := 2 }).toOption.map
      (fun r => (r.2 { ref := 0, id := str "X", decimals := 2 }).length)) = some 2 := by decide +kernel

/-- 3.00 X are 2.40 Z over the two prices. -/
example : ((wConvert (wPricesOf demoPrices) (directMap demoPrices) 20 { ref := 2, id := str "Z", decimals := 2 }
    ⟨300, { ref := 0, id := str "X", decimals := 2 }⟩ 0).toOption.map (·.1.int)) = some 240 := by decide +kernel

end Verif
