import Verif.Props.PageTable
/-
C197: the register and the balances on the page agree.
-/
namespace Verif

/-! ## Lemmas -/

/-- The total on the last row of the page's register is the sum of what was posted in the range. -/
theorem page_last_total {P : Install} {st : LoadState} {accts : List Acct} {page : List WTxn} (hP : PageOpened P st accts page) {c : Com} (hc : OneCom st accts c)
    (hbig : ((allPostings st.txns).map fun e => (unitsOf e.1 e.2).natAbs).sum ≤ 2 ^ 53) (a : WAcct) (hcom : a.com = ⟨0, c.id, c.decimals⟩)
    (start stop : Int) (f : Filters) (hr : SameRange st.txns f start stop)
    (conv : Com → Amount → Int → Except Fault Amount) (off : Int) (rows : List VRow) (hrows : viewRegisterFull conv off page a start stop = .ok rows) :
    lastTotal rows = (((acctPosts page a.fullName).filter fun v => decide (start ≤ v.txn.posted ∧ v.txn.posted ≤ stop)).map fun v : VPost => v.post.quantity.int).sum := by
  obtain ⟨hperm, hsorted⟩ := page_amounts hP hc f start stop hr (fun _ => none) a.fullName
  obtain ⟨ns, n1, n2, n3⟩ := C149_register conv off page hsorted a start stop rows _ rfl hrows
  have hcoms : ∀ v ∈ (acctPosts page a.fullName).filter (fun v => decide (start ≤ v.txn.posted ∧ v.txn.posted ≤ stop)), v.post.quantity.com = a.com := by
    intro v hv
    obtain ⟨e, _, he⟩ := List.mem_map.mp (hperm.mem_iff.mp (List.mem_map_of_mem (f := fun v : VPost => v.post.quantity) hv))
    rw [← he, hcom]
  have hns : ns = ((acctPosts page a.fullName).filter (fun v => decide (start ≤ v.txn.posted ∧ v.txn.posted ≤ stop))).map fun v => v.post.quantity.int := by
    clear n2 n3 hperm
    generalize (acctPosts page a.fullName).filter (fun v => decide (start ≤ v.txn.posted ∧ v.txn.posted ≤ stop)) = shown at n1 hcoms
    induction n1 with
    | nil => rfl
    | cons hab _ ih =>
      rw [List.map_cons, ih fun v hv => hcoms v (by simp [hv])]
      rcases hab with ⟨_, h⟩ | ⟨h, _⟩
      · rw [h]
      · exact absurd (hcoms _ (by simp)) h
  have hbk : ns.Perm ((booked (accts.map (·.fullName)) (fun _ => none) f st.txns a.fullName).map fun e => unitsOf e.1 e.2) := by
    rw [hns]
    have := hperm.map (·.int)
    rw [List.map_map, List.map_map] at this
    exact this
  have habs : (ns.map (·.natAbs)).sum ≤ 2 ^ 53 := by
    refine le_trans ?_ hbig
    rw [(hbk.map _).sum_eq, List.map_map]
    classical
    exact sum_le_of_sublist (List.filter_sublist.map _)
  have hfit : RunsFit 0 ns := by
    intro k
    rw [zero_add]
    refine (natAbs_sum _).trans (le_trans ?_ habs)
    exact sum_le_of_sublist ((List.take_sublist k ns).map _)
  rw [← hns]
  have hlen : ns.length = rows.length := by rw [n2]; exact n1.length_eq.symm
  unfold lastTotal
  rw [List.getLast?_eq_getElem?]
  rcases Nat.eq_zero_or_pos rows.length with h0 | h0
  · have : ns = [] := List.length_eq_zero_iff.mp (by omega)
    rw [List.length_eq_zero_iff.mp h0, this]
    rfl
  · obtain ⟨x, hx⟩ : ∃ x, rows[rows.length - 1]? = some x := ⟨_, List.getElem?_eq_getElem (by omega)⟩
    rw [hx]
    show x.total.int = _
    rw [n3 hfit _ _ hx, show rows.length - 1 + 1 = ns.length by omega, List.take_length]

theorem acctPosts_txn {ts : List WTxn} {a : Str} {v : VPost} (h : v ∈ acctPosts ts a) : v.txn ∈ ts := by
  obtain ⟨t, ht, hv⟩ := List.mem_flatMap.mp (List.mem_filter.mp h).1
  obtain ⟨e, _, rfl⟩ := List.mem_map.mp hv
  exact ht

/-- **C197** For files in one commodity without asserted balances, whose amounts add up to at most 2^53 units: on the page, the balance of an account at the
end of a day is its balance before the first day of a range that ends there and the total on the last row of its register for the range. -/
theorem C197_register_explains_balance (P : Install) (st : LoadState) (accts : List Acct) (page : List WTxn) (hP : PageOpened P st accts page)
    (c : Com) (hc : OneCom st accts c) (hno : NoAssertions st.txns)
    (hbig : ((allPostings st.txns).map fun e => (unitsOf e.1 e.2).natAbs).sum ≤ 2 ^ 53)
    (a : WAcct) (ha : a.fullName ∈ accts.map (·.fullName)) (hcom : a.com = ⟨0, c.id, c.decimals⟩) (first last : Int) (hfl : first ≤ last + 1)
    (conv : Com → Amount → Int → Except Fault Amount) (off : Int) (rows : List VRow)
    (hrows : viewRegisterFull conv off page a (86400 * first) (86400 * last) = .ok rows) :
    (balanceAt page a (86400 * last)).int = (balanceAt page a (86400 * (first - 1))).int + lastTotal rows := by
  have hl := page_last_total hP hc hbig a hcom (86400 * first) (86400 * last) ⟨some first, some (last + 1), [], []⟩
    ⟨fun t _ => by simp; omega, rfl, rfl⟩ conv off rows hrows
  rw [page_balance hP hc hno a ha hcom last, page_balance hP hc hno a ha hcom (first - 1), hl]
  have hday : ∀ v ∈ acctPosts page a.fullName, ∃ n, v.txn.posted = 86400 * n := by
    intro v hv
    obtain ⟨_, _, _, _, _, _, _, fin, sorted, location, _, _, _, _, _, _, _, _, rfl⟩ := hP
    obtain ⟨t, _, e⟩ := List.mem_map.mp (acctPosts_txn hv)
    exact ⟨t.posted, by rw [← e]; rfl⟩
  show List.sum _ = List.sum _ + List.sum _
  generalize acctPosts page a.fullName = l at hday
  clear hl hrows
  induction l with
  | nil => rfl
  | cons v l ih =>
    have ih := ih fun u hu => hday u (by simp [hu])
    obtain ⟨n, hn⟩ := hday v (by simp)
    by_cases h1 : v.txn.posted ≤ 86400 * (first - 1)
    · rw [List.filter_cons_of_pos (by simp; omega), List.filter_cons_of_pos (by simpa using h1), List.filter_cons_of_neg (by simp; omega), List.map_cons, List.map_cons,
        List.sum_cons, List.sum_cons, ih]
      omega
    · by_cases h2 : v.txn.posted ≤ 86400 * last
      · rw [List.filter_cons_of_pos (by simp; omega), List.filter_cons_of_neg (by simp; omega), List.filter_cons_of_pos (by simp; omega), List.map_cons, List.map_cons,
          List.sum_cons, List.sum_cons, ih]
        omega
      · rw [List.filter_cons_of_neg (by simp; omega), List.filter_cons_of_neg (by simp; omega), List.filter_cons_of_neg (by simp; omega), ih]

/-- Non-vacuity: cash at the end of the year is the -3.50 before the fourth of January and the 10.00 its register shows from there on. -/
example : ∃ rows, viewRegisterFull (fun _ _ _ => .error .err) 0 progPage progCash (86400 * 737427) (86400 * 737790) = .ok rows ∧ lastTotal rows = 1000 ∧
    (balanceAt progPage progCash (86400 * 737790)).int = (balanceAt progPage progCash (86400 * (737427 - 1))).int + lastTotal rows ∧
    (balanceAt progPage progCash (86400 * (737427 - 1))).int = -350 := by
  obtain ⟨rows, hrows, hl⟩ : ∃ rows, viewRegisterFull (fun _ _ _ => .error .err) 0 progPage progCash (86400 * 737427) (86400 * 737790) = .ok rows ∧ lastTotal rows = 1000 := by
    have h : ((viewRegisterFull (fun _ _ _ => .error .err) 0 progPage progCash (86400 * 737427) (86400 * 737790)).toOption.map lastTotal) = some 1000 := by decide +kernel
    cases e : viewRegisterFull (fun _ _ _ => .error .err) 0 progPage progCash (86400 * 737427) (86400 * 737790) with
    | error x => rw [e] at h; cases h
    | ok rows => rw [e] at h; exact ⟨rows, rfl, Option.some.inj h⟩
  refine ⟨rows, hrows, hl, ?_, by decide +kernel⟩
  exact C197_register_explains_balance progInstall progState progAccts progPage prog_page progCad (prog_opens fun _ => none).2 (by unfold NoAssertions; decide +kernel)
    (by decide +kernel) progCash (by decide +kernel) (by decide +kernel) 737427 737790 (by decide) _ 0 rows hrows

end Verif
