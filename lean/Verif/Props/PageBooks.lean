import Verif.Props.PageTotals
import Verif.Props.Books
/-
C199: the balances on the page add up to zero.
-/
namespace Verif

/-- **C199** For files in one commodity without asserted balances and without postings to Root (which the page leaves out): the balances of all accounts on
the page at the end of any day add up to zero. -/
theorem C199_page_balances (P : Install) (compile : Compile) (st : LoadState) (accts : List Acct) (g : LedgerView) (page : List WTxn)
    (hO : Opened P compile st accts g) (hP : PageOpened P st accts page) (c : Com) (hc : OneCom st accts c) (hno : NoAssertions st.txns)
    (hroot : ∀ t ∈ st.txns, ∀ p ∈ t.postings, ¬ Means (accts.map (·.fullName)) p.account (str "Root"))
    (cs : List Com) (was : List WAcct) (hwas : SameAccounts cs accts was) (hcom : ∀ w ∈ was, w.com = ⟨0, c.id, c.decimals⟩) (d : Int) :
    (was.map fun w => (balanceAt page w (86400 * d)).int).sum = 0 := by
  classical
  obtain ⟨L, dflt, decls, hA⟩ : ∃ L dflt decls, ResolvedAccounts dflt decls accts L := by
    obtain ⟨_, _, _, _, _, L, _, _, _, _, _, _, _, _, hA, _⟩ := hP
    exact ⟨L, _, _, hA⟩
  have hn := (resolved_spec _ _ _ _ hA).1
  have hrm := (resolved_spec _ _ _ _ hA).2.2.2.2
  have htree := C123_loaded cs dflt decls accts L was hA hwas
  set names := accts.map (·.fullName) with hnames
  let f : Filters := ⟨none, some (d + 1), [], []⟩
  have hup : UpTo st.txns f d := ⟨fun t _ => by simp [f]; omega, rfl, rfl⟩
  have e : was.map (fun w => (balanceAt page w (86400 * d)).int) = (was.map (·.fullName)).map (ownUnits names compile f st.txns) := by
    rw [List.map_map]
    refine List.map_congr_left ?_
    intro v hv
    rw [page_own hP hc hno v (page_parent hwas hv).2.1 (hcom v hv) compile f d hup]
    rfl
  have hperm : (str "Root" :: was.map (·.fullName)).Perm names := by
    rw [List.perm_ext_iff_of_nodup]
    · intro x
      rw [List.mem_cons, List.mem_map]
      constructor
      · rintro (rfl | ⟨v, hv, rfl⟩)
        · exact hrm
        · exact (page_parent hwas hv).2.1
      · intro hx
        by_cases h : x = str "Root"
        · exact .inl h
        · obtain ⟨b, hb, rfl⟩ := List.mem_map.mp hx
          exact .inr (hwas.2.1 b hb h)
    · rw [List.nodup_cons]
      refine ⟨?_, htree.nodup⟩
      intro h
      obtain ⟨v, hv, ev⟩ := List.mem_map.mp h
      exact (page_parent hwas hv).1 ev
    · exact hn
  have hfam : familyOf names (str "Root") = names := by
    unfold familyOf
    rw [List.filter_eq_self]
    intro a _
    exact decide_eq_true (inSub_root a)
  have h0 := root_total (compile := compile) hO hc (f := f) rfl
  unfold cumUnits at h0
  rw [hfam, ← perm_sum_int (hperm.map _), List.map_cons, List.sum_cons] at h0
  have hown : ownUnits names compile f st.txns (str "Root") = 0 := by
    have hb : booked names compile f st.txns (str "Root") = [] := by
      unfold booked
      rw [List.filter_eq_nil_iff]
      intro e he
      unfold allPostings at he
      obtain ⟨t, ht, he⟩ := List.mem_flatMap.mp he
      obtain ⟨p, hp, rfl⟩ := List.mem_map.mp he
      rw [decide_eq_true_iff]
      exact fun h => hroot t ht p hp h.1
    unfold ownUnits
    rw [hb]
    rfl
  rw [hown, zero_add] at h0
  rw [e]
  exact h0

/-- Non-vacuity: the ledger of C156 at the end of the third of January, when Cash has -3.50 and Food 3.50. -/
example : (progWas.map fun w => (balanceAt progPage w (86400 * 737426)).int) = [0, -350, 350, 0] ∧
    (progWas.map fun w => (balanceAt progPage w (86400 * 737426)).int).sum = 0 := by
  refine ⟨by decide +kernel, ?_⟩
  refine C199_page_balances progInstall (fun _ => none) progState progAccts (progView fun _ => none) progPage (prog_opens _).1 prog_page progCad (prog_opens fun _ => none).2
    (by unfold NoAssertions; decide +kernel) ?_ _ progWas prog_was (by decide) 737426
  have h : ∀ t ∈ progState.txns, ∀ p ∈ t.postings, (mustFindAccount (progAccts.map (·.fullName)) (patternMatches p.account) p.account).toOption ≠ some (str "Root") := by
    decide +kernel
  intro t ht p hp hm
  refine h t ht p hp ?_
  rw [show mustFindAccount (progAccts.map (·.fullName)) (patternMatches p.account) p.account = .ok (str "Root") from hm]
  rfl

end Verif
