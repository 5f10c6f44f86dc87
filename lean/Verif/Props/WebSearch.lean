import Verif.Model.WebConvert
import Verif.Props.WebConvert
import Mathlib.Data.List.Perm.Subperm
/-!
# C114, C115: chains of prices on the page
-/
namespace Verif

/-! ## Specification -/

/-- A known price (or reversed price) leads from `a` to `b`. -/
def HasConv (m : ConvMap) (a b : Com) : Prop := ∃ cv, (b, cv) ∈ m a ∧ cv.steps = 1

/-- A chain of `n` prices leads from `a` to `b`. -/
inductive PriceChain (m : ConvMap) (a : Com) : Nat → Com → Prop
  | start : PriceChain m a 0 a
  | step {n : Nat} {b c : Com} : PriceChain m a n b → HasConv m b c → PriceChain m a (n + 1) c

/-- The maps of the page: every entry is a conversion from its owner to its key, keys are distinct. -/
structure MapOK (m : ConvMap) : Prop where
  keys : ∀ c, ((m c).map (·.1)).Nodup
  ends : ∀ c, ∀ e ∈ m c, e.2.src = c ∧ e.2.dst = e.1

/-- All commodities: `U` contains what its members have prices in. -/
def ClosedUnder (m : ConvMap) (U : List Com) : Prop := ∀ c ∈ U, ∀ e ∈ m c, e.1 ∈ U

/-- A chain, last price first, as the search builds it. -/
inductive RevPath (m : ConvMap) (src : Com) : Com → List WConv → Prop
  | nil : RevPath m src src []
  | cons {a c : Com} {cv : WConv} {rest : List WConv} : RevPath m src a rest → (c, cv) ∈ m a → cv.steps = 1 → RevPath m src c (cv :: rest)

theorem RevPath.chain {m : ConvMap} {src c : Com} {p : List WConv} (h : RevPath m src c p) : PriceChain m src p.length c := by
  induction h with
  | nil => exact .start
  | cons _ h1 h2 ih => exact .step ih ⟨_, h1, h2⟩

theorem steps_pos (c : WConv) : 1 ≤ c.steps := by
  induction c with
  | direct _ _ => exact le_refl _
  | comp c1 c2 h1 h2 => unfold WConv.steps; omega

theorem jsGet_mem {l : List (Com × WConv)} {k : Com} {v : WConv} (h : jsGet l k = some v) : (k, v) ∈ l := by
  unfold jsGet at h
  cases hf : l.find? (fun e => decide (e.1 = k)) with
  | none => rw [hf] at h; cases h
  | some e =>
    rw [hf] at h
    simp only [Option.map_some, Option.some.injEq] at h
    have h1 := List.mem_of_find?_eq_some hf
    have h2 := List.find?_some hf
    simp only [decide_eq_true_eq] at h2
    rw [← h2, ← h]; exact h1

theorem key_unique {l : List (Com × WConv)} (hn : (l.map (·.1)).Nodup) {k : Com} {v w : WConv} (h1 : (k, v) ∈ l) (h2 : (k, w) ∈ l) : v = w := by
  induction l with
  | nil => simp at h1
  | cons e l ih =>
    rw [List.map_cons, List.nodup_cons] at hn
    rw [List.mem_cons] at h1 h2
    rcases h1 with h1 | h1 <;> rcases h2 with h2 | h2
    · rw [← h1] at h2; cases h2; rfl
    · exact absurd (List.mem_map_of_mem (f := (·.1)) h2) (by rw [← h1] at hn; exact hn.1)
    · exact absurd (List.mem_map_of_mem (f := (·.1)) h1) (by rw [← h2] at hn; exact hn.1)
    · exact ih hn.2 h1 h2

theorem jsGet_of_mem {l : List (Com × WConv)} (hn : (l.map (·.1)).Nodup) {k : Com} {v : WConv} (h : (k, v) ∈ l) : jsGet l k = some v := by
  unfold jsGet
  cases hf : l.find? (fun e => decide (e.1 = k)) with
  | none =>
    have := List.find?_eq_none.mp hf _ h
    simp at this
  | some e =>
    have h1 := List.mem_of_find?_eq_some hf
    have h2 := List.find?_some hf
    simp only [decide_eq_true_eq] at h2
    obtain ⟨k', v'⟩ := e
    simp only at h2
    subst h2
    simp only [Option.map_some, Option.some.injEq]
    exact key_unique hn h1 h

/-! ## The inner loop -/

theorem pushAll_spec (path : List WConv) : ∀ (es : List (Com × WConv)) (q : List (Com × List WConv)) (v : List Com),
    ∃ new : List (Com × WConv), pushAll path es q v = (q ++ new.map (fun e => (e.1, e.2 :: path)), v ++ new.map (·.1)) ∧
      (∀ e ∈ new, e ∈ es ∧ e.2.steps = 1 ∧ e.1 ∉ v) ∧ (new.map (·.1)).Nodup ∧
      (∀ e ∈ es, e.2.steps = 1 → e.1 ∈ v ++ new.map (·.1)) := by
  intro es
  induction es with
  | nil => intro q v; exact ⟨[], by simp [pushAll], by simp, by simp, by simp⟩
  | cons e es ih =>
    intro q v
    obtain ⟨c2, cv⟩ := e
    have hp := steps_pos cv
    by_cases hc : cv.steps > 1 ∨ c2 ∈ v
    · obtain ⟨new, e1, e2, e3, e4⟩ := ih q v
      refine ⟨new, by unfold pushAll; rw [if_pos hc]; exact e1, ?_, e3, ?_⟩
      · intro e he; exact ⟨List.mem_cons_of_mem _ (e2 e he).1, (e2 e he).2⟩
      · intro e he hs
        rcases List.mem_cons.mp he with rfl | he
        · rcases hc with hc | hc
          · simp only at hs; omega
          · exact List.mem_append_left _ hc
        · exact e4 e he hs
    · obtain ⟨new, e1, e2, e3, e4⟩ := ih (q ++ [(c2, cv :: path)]) (v ++ [c2])
      rw [not_or] at hc
      refine ⟨(c2, cv) :: new, ?_, ?_, ?_, ?_⟩
      · unfold pushAll
        rw [if_neg (by rw [not_or]; exact hc), e1]
        simp
      · intro e he
        rcases List.mem_cons.mp he with rfl | he
        · exact ⟨List.mem_cons_self, by simp only; omega, hc.2⟩
        · obtain ⟨g1, g2, g3⟩ := e2 e he
          exact ⟨List.mem_cons_of_mem _ g1, g2, fun h => g3 (List.mem_append_left _ h)⟩
      · rw [List.map_cons, List.nodup_cons]
        refine ⟨?_, e3⟩
        intro h
        obtain ⟨x, hx, hxe⟩ := List.mem_map.mp h
        apply (e2 x hx).2.2
        rw [hxe]; simp
      · intro e he hs
        rcases List.mem_cons.mp he with rfl | he
        · simp
        · have := e4 e he hs
          rw [List.append_assoc] at this
          exact this

/-! ## The search -/

/-- Invariant of the search: `P` are the commodities taken off the queue, `dep` the length of the path to a visited commodity. -/
structure SearchInv (m : ConvMap) (dst src : Com) (U : List Com) (q : List (Com × List WConv)) (v P : List Com) (dep : Com → Nat) : Prop where
  path : ∀ e ∈ q, RevPath m src e.1 e.2 ∧ e.2.length = dep e.1
  vis : ∀ e ∈ q, e.1 ∈ v
  cover : ∀ x ∈ v, x ∈ P ∨ ∃ e ∈ q, e.1 = x
  pv : ∀ u ∈ P, u ∈ v
  nolink : ∀ u ∈ P, ¬ HasConv m u dst
  succ : ∀ u ∈ P, ∀ x, HasConv m u x → x ∈ v ∧ dep x ≤ dep u + 1
  srcV : src ∈ v
  src0 : dep src = 0
  low : ∀ u ∈ P, ∀ e ∈ q, dep u ≤ dep e.1
  sorted : q.Pairwise (fun e f => dep e.1 ≤ dep f.1)
  near : ∀ e ∈ q, ∀ f ∈ q, dep f.1 ≤ dep e.1 + 1
  inU : ∀ x ∈ v, x ∈ U
  nodup : v.Nodup
  srcs : ∀ e ∈ q, ∀ cv ∈ e.2, cv.src ∈ P

/-- What the search must return. -/
def SearchResult (m : ConvMap) (src dst : Com) : Option (List WConv) → Prop
  | none => ∀ n, ¬ PriceChain m src (n + 1) dst
  | some p => p ≠ [] ∧ RevPath m src dst p ∧ (∀ n, PriceChain m src (n + 1) dst → p.length ≤ n + 1) ∧ ∀ cv ∈ p.tail, ¬ HasConv m cv.src dst

/-- A commodity reached by a chain of `n` prices was taken off the queue, or one on the way is still on it at depth at most `n`. -/
theorem SearchInv.frontier {m : ConvMap} {dst src : Com} {U : List Com} {q : List (Com × List WConv)} {v P : List Com} {dep : Com → Nat}
    (h : SearchInv m dst src U q v P dep) {n : Nat} {x : Com} (hc : PriceChain m src n x) :
    (x ∈ P ∧ dep x ≤ n) ∨ ∃ e ∈ q, dep e.1 ≤ n := by
  induction hc with
  | start =>
    rcases h.cover src h.srcV with hp | ⟨e, he, rfl⟩
    · exact Or.inl ⟨hp, by rw [h.src0]⟩
    · exact Or.inr ⟨e, he, by rw [h.src0]⟩
  | @step n b c _ hl ih =>
    rcases ih with ⟨hp, hd⟩ | ⟨e, he, hd⟩
    · obtain ⟨hv, hd2⟩ := h.succ b hp c hl
      rcases h.cover c hv with hp2 | ⟨e, he, rfl⟩
      · exact Or.inl ⟨hp2, by omega⟩
      · exact Or.inr ⟨e, he, by omega⟩
    · exact Or.inr ⟨e, he, by omega⟩

theorem bfs_inv (m : ConvMap) (hm : MapOK m) (dst src : Com) (U : List Com) (hU : ClosedUnder m U) : ∀ (fuel : Nat) (q : List (Com × List WConv)) (v P : List Com)
    (dep : Com → Nat), SearchInv m dst src U q v P dep → 2 * (U.length - v.length) + q.length < fuel →
    ∃ r, bfs m dst fuel q v = some r ∧ SearchResult m src dst r := by
  intro fuel
  induction fuel with
  | zero => intro q v P dep _ h; omega
  | succ fuel ih =>
    intro q v P dep hi hf
    cases q with
    | nil =>
      refine ⟨none, rfl, ?_⟩
      intro n hc
      cases hc with
      | step hc hl =>
        rcases hi.frontier hc with ⟨hp, _⟩ | ⟨e, he, _⟩
        · exact hi.nolink _ hp hl
        · simp at he
    | cons e q =>
      obtain ⟨c, path⟩ := e
      obtain ⟨hpath, hlen⟩ := hi.path _ List.mem_cons_self
      simp only at hpath hlen
      have hcv : c ∈ v := hi.vis _ List.mem_cons_self
      have hshort : ∀ n, PriceChain m src (n + 1) dst → path.length ≤ n := by
        intro n hc
        cases hc with
        | step hc hl =>
          rcases hi.frontier hc with ⟨hp, _⟩ | ⟨e, he, hd⟩
          · exact absurd hl (hi.nolink _ hp)
          · have hs := hi.sorted
            rw [List.pairwise_cons] at hs
            rcases List.mem_cons.mp he with rfl | he
            · simp only at hd; omega
            · have := hs.1 e he; simp only at this; omega
      by_cases hlink : ∃ cv, jsGet (m c) dst = some cv ∧ cv.steps = 1
      · obtain ⟨cv, hg, hs⟩ := hlink
        refine ⟨some (cv :: path), ?_, by simp, .cons hpath (jsGet_mem hg) hs, ?_, ?_⟩
        · unfold bfs; rw [hg]; dsimp only; rw [if_pos hs]
        · intro n hc
          have := hshort n hc
          simp only [List.length_cons]; omega
        · intro cv' hcv'
          exact hi.nolink _ (hi.srcs _ List.mem_cons_self cv' hcv')
      · have hstep : bfs m dst (fuel + 1) ((c, path) :: q) v = bfs m dst fuel (pushAll path (m c) q v).1 (pushAll path (m c) q v).2 := by
          conv_lhs => unfold bfs
          cases hg : jsGet (m c) dst with
          | none => rfl
          | some cv =>
            dsimp only
            rw [if_neg (fun hs => hlink ⟨cv, hg, hs⟩)]
        rw [hstep]
        obtain ⟨new, e1, e2, e3, e4⟩ := pushAll_spec path (m c) q v
        rw [e1]
        dsimp only
        -- new depths
        have hdv : ∀ x, x ∈ v → (if x ∈ new.map (·.1) then dep c + 1 else dep x) = dep x := by
          intro x hx
          rw [if_neg]
          intro hm'
          obtain ⟨y, hy, rfl⟩ := List.mem_map.mp hm'
          exact (e2 y hy).2.2 hx
        have hdn : ∀ e ∈ new, (if e.1 ∈ new.map (·.1) then dep c + 1 else dep e.1) = dep c + 1 := by
          intro e he; rw [if_pos (List.mem_map_of_mem he)]
        have hsorted := hi.sorted
        rw [List.pairwise_cons] at hsorted
        have hqc : ∀ f ∈ q, dep c ≤ dep f.1 ∧ dep f.1 ≤ dep c + 1 := by
          intro f hf'
          exact ⟨hsorted.1 f hf', hi.near _ List.mem_cons_self f (List.mem_cons_of_mem _ hf')⟩
        have hqv : ∀ f ∈ q, f.1 ∈ v := fun f hf' => hi.vis f (List.mem_cons_of_mem _ hf')
        have hnodup : (v ++ new.map (·.1)).Nodup := by
          rw [List.nodup_append]
          refine ⟨hi.nodup, e3, ?_⟩
          intro x hx y hy hxy
          obtain ⟨z, hz, rfl⟩ := List.mem_map.mp hy
          exact (e2 z hz).2.2 (hxy ▸ hx)
        have hsub : ∀ x ∈ v ++ new.map (·.1), x ∈ U := by
          intro x hx
          rcases List.mem_append.mp hx with hx | hx
          · exact hi.inU x hx
          · obtain ⟨z, hz, rfl⟩ := List.mem_map.mp hx
            exact hU c (hi.inU c hcv) z (e2 z hz).1
        have hle : (v ++ new.map (·.1)).length ≤ U.length := (hnodup.subperm hsub).length_le
        apply ih (q ++ new.map (fun e => (e.1, e.2 :: path))) (v ++ new.map (·.1)) (c :: P)
          (fun x => if x ∈ new.map (·.1) then dep c + 1 else dep x)
        · refine ⟨?_, ?_, ?_, ?_, ?_, ?_, ?_, ?_, ?_, ?_, ?_, hsub, hnodup, ?_⟩
          · intro e he
            rcases List.mem_append.mp he with he | he
            · obtain ⟨g1, g2⟩ := hi.path e (List.mem_cons_of_mem _ he)
              refine ⟨g1, ?_⟩
              rw [hdv _ (hqv e he), g2]
            · obtain ⟨z, hz, rfl⟩ := List.mem_map.mp he
              obtain ⟨g1, g2, _⟩ := e2 z hz
              refine ⟨.cons hpath g1 g2, ?_⟩
              dsimp only
              rw [hdn z hz, List.length_cons, hlen]
          · intro e he
            rcases List.mem_append.mp he with he | he
            · exact List.mem_append_left _ (hqv e he)
            · obtain ⟨z, hz, rfl⟩ := List.mem_map.mp he
              exact List.mem_append_right _ (List.mem_map_of_mem hz)
          · intro x hx
            rcases List.mem_append.mp hx with hx | hx
            · rcases hi.cover x hx with hp | ⟨e, he, rfl⟩
              · exact Or.inl (List.mem_cons_of_mem _ hp)
              · rcases List.mem_cons.mp he with rfl | he
                · exact Or.inl List.mem_cons_self
                · exact Or.inr ⟨e, List.mem_append_left _ he, rfl⟩
            · obtain ⟨z, hz, rfl⟩ := List.mem_map.mp hx
              exact Or.inr ⟨_, List.mem_append_right _ (List.mem_map_of_mem hz), rfl⟩
          · intro u hu
            rcases List.mem_cons.mp hu with rfl | hu
            · exact List.mem_append_left _ hcv
            · exact List.mem_append_left _ (hi.pv u hu)
          · intro u hu
            rcases List.mem_cons.mp hu with rfl | hu
            · rintro ⟨cv, h1, h2⟩
              exact hlink ⟨cv, jsGet_of_mem (hm.keys _) h1, h2⟩
            · exact hi.nolink u hu
          · intro u hu x hl
            rcases List.mem_cons.mp hu with rfl | hu
            · obtain ⟨cv, h1, h2⟩ := hl
              have hxm : x ∈ v ++ new.map (·.1) := e4 _ h1 h2
              refine ⟨hxm, ?_⟩
              rw [hdv _ hcv]
              rcases List.mem_append.mp hxm with hx | hx
              · rw [hdv _ hx]
                rcases hi.cover x hx with hp | ⟨e, he, rfl⟩
                · have := hi.low x hp _ List.mem_cons_self
                  simp only at this; omega
                · have := hi.near _ List.mem_cons_self e he
                  simpa using this
              · rw [if_pos hx]
            · obtain ⟨g1, g2⟩ := hi.succ u hu x hl
              refine ⟨List.mem_append_left _ g1, ?_⟩
              rw [hdv _ g1, hdv _ (hi.pv u hu)]; exact g2
          · exact List.mem_append_left _ hi.srcV
          · rw [hdv _ hi.srcV]; exact hi.src0
          · intro u hu e he
            have hu' : u ∈ v ∧ dep u ≤ dep c := by
              rcases List.mem_cons.mp hu with rfl | hu
              · exact ⟨hcv, le_refl _⟩
              · exact ⟨hi.pv u hu, hi.low u hu _ List.mem_cons_self⟩
            rw [hdv _ hu'.1]
            rcases List.mem_append.mp he with he | he
            · rw [hdv _ (hqv e he)]
              have := hqc e he; omega
            · obtain ⟨z, hz, rfl⟩ := List.mem_map.mp he
              dsimp only
              rw [hdn z hz]; omega
          · rw [List.pairwise_append]
            refine ⟨?_, ?_, ?_⟩
            · apply hsorted.2.imp_of_mem
              intro a b ha hb hab
              rw [hdv _ (hqv a ha), hdv _ (hqv b hb)]; exact hab
            · rw [List.pairwise_map]
              apply List.Pairwise.imp_of_mem (R := fun _ _ => True)
              · intro a b ha hb _
                dsimp only
                rw [hdn a ha, hdn b hb]
              · exact List.pairwise_of_forall (fun _ _ => trivial)
            · intro a ha b hb
              obtain ⟨z, hz, rfl⟩ := List.mem_map.mp hb
              dsimp only
              rw [hdn z hz, hdv _ (hqv a ha)]
              exact (hqc a ha).2
          · intro e he f hf'
            rcases List.mem_append.mp he with he | he <;> rcases List.mem_append.mp hf' with hf' | hf'
            · rw [hdv _ (hqv e he), hdv _ (hqv f hf')]
              have := hqc e he; have := hqc f hf'; omega
            · obtain ⟨z, hz, rfl⟩ := List.mem_map.mp hf'
              dsimp only
              rw [hdn z hz, hdv _ (hqv e he)]
              have := hqc e he; omega
            · obtain ⟨z, hz, rfl⟩ := List.mem_map.mp he
              dsimp only
              rw [hdn z hz, hdv _ (hqv f hf')]
              have := hqc f hf'; omega
            · obtain ⟨z, hz, rfl⟩ := List.mem_map.mp he
              obtain ⟨w, hw, rfl⟩ := List.mem_map.mp hf'
              dsimp only
              rw [hdn z hz, hdn w hw]; omega
          · intro e he cv hcv'
            rcases List.mem_append.mp he with he | he
            · exact List.mem_cons_of_mem _ (hi.srcs e (List.mem_cons_of_mem _ he) cv hcv')
            · obtain ⟨z, hz, rfl⟩ := List.mem_map.mp he
              dsimp only at hcv'
              rcases List.mem_cons.mp hcv' with rfl | hcv'
              · rw [(hm.ends c z (e2 z hz).1).1]; exact List.mem_cons_self
              · exact List.mem_cons_of_mem _ (hi.srcs _ List.mem_cons_self cv hcv')
        · simp only [List.length_append, List.length_map, List.length_cons] at hf hle ⊢
          omega

/-- The search ends and returns a shortest chain, or nothing when there is none. -/
theorem bfs_spec (m : ConvMap) (hm : MapOK m) (dst src : Com) (U : List Com) (hU : ClosedUnder m U) (hs : src ∈ U) (fuel : Nat) (hf : 2 * U.length < fuel) :
    ∃ r, bfs m dst fuel [(src, [])] [src] = some r ∧ SearchResult m src dst r := by
  apply bfs_inv m hm dst src U hU fuel [(src, [])] [src] [] (fun _ => 0)
  · refine ⟨?_, ?_, ?_, ?_, ?_, ?_, ?_, ?_, ?_, ?_, ?_, ?_, ?_, ?_⟩
    · intro e he; rw [List.mem_singleton] at he; subst he; exact ⟨.nil, rfl⟩
    · intro e he; rw [List.mem_singleton] at he; subst he; simp
    · intro x hx; rw [List.mem_singleton] at hx; subst hx; exact Or.inr ⟨(x, []), by simp, rfl⟩
    · intro u hu; simp at hu
    · intro u hu; simp at hu
    · intro u hu; simp at hu
    · simp
    · rfl
    · intro u hu; simp at hu
    · simp
    · intro e _ f _; omega
    · intro x hx; rw [List.mem_singleton] at hx; subst hx; exact hs
    · simp
    · intro e he; rw [List.mem_singleton] at he; subst he; intro cv hcv; simp at hcv
  · have : 0 < U.length := List.length_pos_of_mem hs
    simp only [List.length_singleton]; omega

end Verif
