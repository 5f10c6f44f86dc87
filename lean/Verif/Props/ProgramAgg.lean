import Verif.Props.ProgramAny
import Verif.Props.TableOut
import Verif.Props.PlainOut
import Verif.Props.ViewGroup
/-
C169: the aggregated register from the files to its output, in a ledger of one commodity.
-/
namespace Verif

/-! ## Specification -/

/-- The period the flags ask for: `-w`, `-m`, `-q`, `-y`, the first given in this order. -/
inductive PeriodAsked (l : List (Str × Str)) : Option Aggregate → Prop
  | week : boolFlag l (str "w") = true → PeriodAsked l (some .weekly)
  | month : boolFlag l (str "w") = false → boolFlag l (str "m") = true → PeriodAsked l (some .monthly)
  | quarter : boolFlag l (str "w") = false → boolFlag l (str "m") = false → boolFlag l (str "q") = true → PeriodAsked l (some .quarterly)
  | year : boolFlag l (str "w") = false → boolFlag l (str "m") = false → boolFlag l (str "q") = false → boolFlag l (str "y") = true →
      PeriodAsked l (some .yearly)
  | none : boolFlag l (str "w") = false → boolFlag l (str "m") = false → boolFlag l (str "q") = false → boolFlag l (str "y") = false → PeriodAsked l none

/-- What the rows are divided by. -/
inductive CatBy
  | payee | tag
  deriving DecidableEq

/-- `-bp` asks for payees, `-bt` for tags. -/
inductive CatAsked (l : List (Str × Str)) : Option CatBy → Prop
  | payee : boolFlag l (str "bp") = true → boolFlag l (str "bt") = false → CatAsked l (some .payee)
  | tag : boolFlag l (str "bp") = false → boolFlag l (str "bt") = true → CatAsked l (some .tag)
  | none : boolFlag l (str "bp") = false → boolFlag l (str "bt") = false → CatAsked l none

/-- The first day of the period of a day. -/
def startOf : Option Aggregate → Int → Int
  | none, _ => 0
  | some g, d => g.red d

/-- How a period is written: weeks as a day, months and quarters as a month, years as a year. -/
def startText : Option Aggregate → Int → Str
  | none, _ => []
  | some .weekly, d => formatDate d
  | some .monthly, d => formatMonth d
  | some .quarterly, d => formatMonth d
  | some .yearly, d => formatYear d

/-- The category of a posting: the description of its transaction, or its tags together with those of the transaction. -/
def catOf : Option CatBy → PTxn × PPost → Str
  | none, _ => []
  | some .payee, e => e.1.description
  | some .tag, e => tagCategory (parseTags e.1.notes) (parseTags e.2.notes)

/-- The postings of a column: those of the account under the filters, with `-r` also those of the accounts below. -/
noncomputable def colPosts (names : List Str) (compile : Compile) (f : Filters) (ts : List PTxn) (recurse : Bool) (a : Str) : List (PTxn × PPost) :=
  (if recurse then familyOf names a else [a]).flatMap (regBooked names compile f ts)

/-- The number in the row of the period `t` and the category `s`: the sum over the postings of the period and category; with `-c` over all
postings up to the period. -/
def unitsAt (per : Option Aggregate) (cat : Option CatBy) (cumulative : Bool) (ps : List (PTxn × PPost)) (t : Int) (s : Str) : Int :=
  ((ps.filter fun e => if cumulative then decide (startOf per e.1.posted ≤ t) else decide (startOf per e.1.posted = t ∧ catOf cat e = s)).map
    fun e => unitsOf e.1 e.2).sum

/-- An account with a column: in the subtree of `r`, with a posting selected in it or below it. -/
def Shown169 (names : List Str) (compile : Compile) (f : Filters) (ts : List PTxn) (r a : Str) : Prop :=
  a ∈ names ∧ InSub r a ∧ colPosts names compile f ts true a ≠ []

/-- The columns and rows of the aggregated register of `r`. -/
structure AggReport (names : List Str) (compile : Compile) (f : Filters) (ts : List PTxn) (per : Option Aggregate) (cat : Option CatBy) (recurse : Bool)
    (r : Str) (accs : List Str) (rows : List (Int × Str)) : Prop where
  cols : ∀ a, a ∈ accs ↔ Shown169 names compile f ts r a
  once : accs.Nodup
  size : accs.Pairwise fun a b => ((colPosts names compile f ts recurse b).map fun e => unitsOf e.1 e.2).sum.natAbs ≤
    ((colPosts names compile f ts recurse a).map fun e => unitsOf e.1 e.2).sum.natAbs
  occur : ∀ t s, (t, s) ∈ rows ↔ ∃ e ∈ colPosts names compile f ts true r, startOf per e.1.posted = t ∧ catOf cat e = s
  order : rows.Pairwise RowLt

/-- The texts of a row: its period, its category, and the amounts of the columns. -/
def RowTexts (names : List Str) (compile : Compile) (f : Filters) (ts : List PTxn) (per : Option Aggregate) (cat : Option CatBy) (recurse cumulative : Bool)
    (c : Com) (accs : List Str) (row : Int × Str) (fields : List Str) : Prop :=
  ∃ amounts, List.Forall₂ (fun a x => Amount.string ⟨unitsAt per cat cumulative (colPosts names compile f ts recurse a) row.1 row.2, c⟩ = .ok x) accs amounts ∧
    fields = leadTexts per.isSome cat.isSome (startText per row.1) row.2 ++ amounts

/-- The name of a column: the last part of the account asked for, or the name of an account below it without the prefix, shortened. -/
def colName (r : Str) (width : Int) (a : Str) : Str :=
  if a = r then (splitOn ':' r).getLastD [] else shortenAccountName (trimPrefix a r) width

/-- The output of the rows `fields` under the columns `labels`: CSV, JSON, or a table. -/
def Presents (format : Str) (head : Str) (period category : Bool) (labels : List Str) (fields : List (List Str)) (out : Str) : Prop :=
  if format = str "json" then
    out = jsonLines ((leadTexts period category (str "Date") (str "Category") ++ labels) :: fields) ∧
    jsonLinesRead out = some (((leadTexts period category (str "Date") (str "Category") ++ labels) :: fields).map fun r => .arr (r.map JVal.str))
  else if format = str "csv" then
    out = csvText ((leadTexts period category (str "Date") (str "Category") ++ labels) :: fields) ∧
    csvRead out = some ((leadTexts period category (str "Date") (str "Category") ++ labels) :: fields)
  else ∃ (ws : List Nat) (first : Str) (lines : List Str),
    out = textOf ((if format = str "text" then [head] else []) ++ first :: lines) ∧
    (∃ cells, TableLine ws cells first ∧ List.Forall₂ Padded (leadTexts period category [] [] ++ labels) cells) ∧
    List.Forall₂ (fun fs line => ∃ cells, TableLine ws cells line ∧ List.Forall₂ Padded fs cells) fields lines

/-- The sort of the columns: whatever can be sorted by size is. -/
def SortsBySize (g : LedgerView) : Prop := ∀ ts, (∃ s, BySize g.env.conv ts s) → BySize g.env.conv ts (g.order ts)

/-! ## The order of the columns -/

theorem amountAt_cover (red : Reducers) (v : View) (K : List (Int × Option Str)) (hK : K.Nodup) (ps : List PRef)
    (hall : ∀ p ∈ ps, (periodOf red v p, keyOf red p) ∈ K) :
    (K.map fun x => amountAt red v ps x.1 x.2).sum = total (ps.map v.qty) := by
  induction ps with
  | nil => simp [amountAt, total]
  | cons p ps ih =>
    replace ih := ih fun q hq => hall q (by simp [hq])
    have hsplit : ∀ x : Int × Option Str, amountAt red v (p :: ps) x.1 x.2 =
        (if (periodOf red v p, keyOf red p) = x then (v.qty p).int else 0) + amountAt red v ps x.1 x.2 := by
      rintro ⟨t, k⟩
      have : p :: ps = [p] ++ ps := rfl
      rw [this, amountAt_append, amountAt_single]
      simp only [Prod.mk.injEq]
    simp only [hsplit]
    rw [List.sum_map_add, ih]
    have h1 : (K.map fun x => if (periodOf red v p, keyOf red p) = x then (v.qty p).int else 0).sum = (v.qty p).int := by
      have hm := hall p (by simp)
      clear hall ih hsplit
      generalize (periodOf red v p, keyOf red p) = y at hm
      have zero : ∀ K' : List (Int × Option Str), y ∉ K' → (K'.map fun x => if y = x then (v.qty p).int else 0).sum = 0 := by
        intro K' h'
        induction K' with
        | nil => rfl
        | cons x K' ih' =>
          simp only [List.mem_cons, not_or] at h'
          simp [h'.1, ih' h'.2]
      induction K with
      | nil => simp at hm
      | cons x K ihK =>
        obtain ⟨n1, n2⟩ := List.nodup_cons.mp hK
        by_cases he : y = x
        · subst he
          rw [List.map_cons, List.sum_cons, zero K n1]; simp
        · have := ihK n2 (by simpa [he] using hm)
          simp [he, this]
    rw [h1]
    simp [total]

theorem keyVal_of_mem {l : Vals} (hn : (l.map (·.1)).Nodup) {e : Option Str × Amount} (he : e ∈ l) : keyVal l e.1 = e.2.int := by
  unfold keyVal getKey
  induction l with
  | nil => cases he
  | cons x l ih =>
    rw [List.map_cons, List.nodup_cons] at hn
    rw [List.find?_cons]
    rcases List.mem_cons.mp he with rfl | he
    · simp
    · have : x.1 ≠ e.1 := fun h => hn.1 (h ▸ List.mem_map_of_mem he)
      rw [decide_eq_false this]
      exact ih hn.2 he

/-- The size of a column is the total of its postings. -/
theorem magnitude_total {dflt : Str} {decls accts : List Acct} {L : Links} {env : Env} {compile : Compile} {v : View} {f : Filters}
    {red : Reducers} {r : Str} {c : Com} {fuel : Nat} (x : AggCtx dflt decls accts L env compile v f red r c fuel) (recurse : Bool)
    (l : List (Str × TS)) (hl : aggTotals env compile v L fuel f red recurse r = .ok l) {e : Str × TS} (he : e ∈ l) {q : Amount}
    (hq : cumMagnitude env.conv e.2 = .ok (some q)) :
    q.int = total ((columnPostings compile v f (accts.map (·.fullName)) recurse e.1).map v.qty) := by
  have t := TreeOK.of x.resolved
  obtain ⟨l', h1, h2, h3, h4⟩ := aggTotals_spec x recurse
  rw [hl] at h1; injection h1 with h1; subst h1
  obtain ⟨w1, w2, w3⟩ := h3 e he
  have hmem := (t.mem_walk r x.mem e.1).mp w1
  have hval := fun s k => (w3.val s k).trans (shown_eq t compile v f red recurse e.1 hmem.1 s k)
  have hhas := fun s k => (w3.has s k).trans (shownAt_eq t compile v f red e.1 hmem.1 s k)
  have hok := w3.ok
  -- the magnitude
  have hint : q.int = (e.2.flatMap fun y => y.vals.map (·.2.int)).sum := by
    unfold cumMagnitude at hq
    rcases hlast : e.2.getLast? with _ | cur
    · rw [hlast] at hq; cases hq
    · rw [hlast] at hq
      have hcm : cur ∈ e.2 := List.mem_of_getLast? hlast
      have hcom : tsCom (some cur) e.2 = some c := by
        obtain ⟨k, hk⟩ := (hok.ok cur hcm).key_exists
        unfold TT.keys at hk
        obtain ⟨kv, hkv, _⟩ := List.mem_map.mp hk
        obtain ⟨e0, l0, h0⟩ := List.exists_cons_of_ne_nil (List.ne_nil_of_mem hkv)
        unfold tsCom TT.com
        simp only [Option.bind_some, h0, List.head?_cons, Option.map_some]
        rw [(hok.ok cur hcm).vals.com e0 (by rw [h0]; simp)]
      simp only [hcom] at hq
      rw [sumInto_same env.conv c _ _ rfl (by
        intro q hq
        obtain ⟨y, hy, hq⟩ := List.mem_flatMap.mp hq
        obtain ⟨e', he', rfl⟩ := List.mem_map.mp hq
        exact (hok.ok y hy).vals.com e' he')] at hq
      have hq : Except.ok (some (⟨(zeroAmount c).int + ((e.2.flatMap fun t => t.vals.map (·.2)).map (·.int)).sum, c⟩ : Amount)) = (Except.ok (some q) : Except Fault _) := hq
      injection hq with hq
      injection hq with hq
      rw [← hq]
      simp only [zeroAmount, List.map_flatMap, List.map_map, zero_add]
      rfl
  have hsum : (e.2.flatMap fun y => y.vals.map (·.2.int)) = (e.2.flatMap fun y => y.keys.map fun k => (y.time, k)).map
      fun z => amountAt red v (columnPostings compile v f (accts.map (·.fullName)) recurse e.1) z.1 z.2 := by
    rw [List.map_flatMap]
    apply List.flatMap_congr
    intro y hy
    unfold TT.keys
    rw [List.map_map, List.map_map]
    apply List.map_congr_left
    intro kv hkv
    show kv.2.int = amountAt red v _ y.time kv.1
    rw [← hval, (hok.at_time hy kv.1).1]
    exact (keyVal_of_mem (hok.ok y hy).vals.nodup hkv).symm
  rw [hint, hsum]
  refine amountAt_cover red v _ ?_ _ ?_
  · rw [List.nodup_flatMap]
    refine ⟨fun y hy => ?_, ?_⟩
    · exact (hok.ok y hy).vals.nodup.map (fun a b h => by injection h)
    · refine hok.sorted.imp ?_
      intro a b hab z hz1 hz2
      obtain ⟨_, _, rfl⟩ := List.mem_map.mp hz1
      obtain ⟨_, _, h⟩ := List.mem_map.mp hz2
      injection h with h
      omega
  · intro p hp
    have hp' : p ∈ columnPostings compile v f (accts.map (·.fullName)) true e.1 := by
      unfold columnPostings at hp ⊢
      cases recurse with
      | true => exact hp
      | false =>
        simp only [Bool.false_eq_true, if_false, List.flatMap_cons, List.flatMap_nil, List.append_nil] at hp
        refine List.mem_flatMap.mpr ⟨e.1, ?_, hp⟩
        unfold familyOf
        simp only [if_true]
        exact List.mem_filter.mpr ⟨hmem.1, by simp [InSub]⟩
    obtain ⟨y, hy, hyt, hyk⟩ := (hhas (periodOf red v p) (keyOf red p)).mpr ⟨p, hp', rfl, rfl⟩
    exact List.mem_flatMap.mpr ⟨y, hy, List.mem_map.mpr ⟨_, hyk, by rw [hyt]⟩⟩

/-! ## The postings -/

/-- What the ledger shows of a posting of the files. -/
structure PostShows (g : LedgerView) (c : Com) (p : PRef) (e : PTxn × PPost) : Prop where
  date : g.view.date p = e.1.posted
  payee : g.view.payee p = e.1.description
  tag : g.tagKey p = tagCategory (parseTags e.1.notes) (parseTags e.2.notes)
  qty : g.view.qty p = ⟨unitsOf e.1 e.2, c⟩

theorem forall2_imp_memR {α β : Type} {R S : α → β → Prop} : ∀ {l : List α} {m : List β}, List.Forall₂ R l m → (∀ a, ∀ b ∈ m, R a b → S a b) → List.Forall₂ S l m := by
  intro l m h
  induction h with
  | nil => intro _; exact .nil
  | cons hab _ ih => intro hf; exact .cons (hf _ _ (by simp) hab) (ih fun a b hb => hf a b (by simp [hb]))

theorem opened_posts {P : Install} {compile : Compile} {st : LoadState} {accts : List Acct} {g : LedgerView} (hO : Opened P compile st accts g)
    {c : Com} (hc : OneCom st accts c) (f : Filters) (as : List Str) :
    ∃ rs, (as.flatMap (regSelectedOf compile g.view f)).Perm rs ∧
      List.Forall₂ (PostShows g c) rs (as.flatMap (regBooked (accts.map (·.fullName)) compile f st.txns)) := by
  classical
  obtain ⟨hl, items, db, ord, fuel, L, walk, fin, sorted, bound, location, order, hi1, hi2, hi3, hi4, hA, hsome, hwalk, hres, hbound, rfl⟩ := hO
  obtain ⟨hn, _, _, _, hroot⟩ := resolved_spec _ _ _ _ hA
  have hw : walk.Nodup := hwalk.nodup_iff.mpr hn
  have hcomOf : ∀ a ∈ accts.map (·.fullName), st.comOf accts a = c := by
    intro a ha
    obtain ⟨x, hx, rfl⟩ := List.mem_map.mp ha
    unfold LoadState.comOf
    rw [getAcct_of_mem accts hn x hx]
    simp [hc.accounts x hx]
  have hcf : ∀ x a, (Env.ofAccounts accts (st.comOf accts) patternMatches (convWith db ord fuel)).find x = .ok a →
      (Env.ofAccounts accts (st.comOf accts) patternMatches (convWith db ord fuel)).comOf a = c :=
    fun x a h => hcomOf a (mustFind_mem hn h)
  set v := viewOf (fun n => (parseTags n).toTags) fin (txnsFrom 0 st.txns) with hvdef
  have inTs : ∀ e ∈ allPostings st.txns, e.1 ∈ st.txns := by
    intro e he
    unfold allPostings at he
    obtain ⟨t, ht, he⟩ := List.mem_flatMap.mp he
    obtain ⟨p, _, rfl⟩ := List.mem_map.mp he
    exact ht
  have hsel : ∀ a, ∃ rs, (regSelectedOf compile v f a).Perm rs ∧
      List.Forall₂ (Stands (heapOf st.txns) (txnsFrom 0 st.txns)) rs (regBooked (accts.map (·.fullName)) compile f st.txns a) := by
    intro a
    obtain ⟨rs, h1, h2⟩ := loaded_posts hw hres a (fun r => RegSelected compile v f r) (fun e => RegPicks compile f e.1 e.2) (by
      rintro r ⟨t, p⟩ hst
      obtain ⟨s1, s2, s3, ⟨t', s4, s5, _⟩, _⟩ := loaded_shown hw hres hst
      unfold RegSelected RegPicks
      simp only [hvdef, viewOf, s4, Option.map_some, Option.getD_some, s1, s3, s5.2.1, s5.2.2.1, toTags_getD])
    refine ⟨rs, ?_, ?_⟩
    · unfold regSelectedOf; exact h1
    · unfold regBooked Means; convert h2; rfl
  induction as with
  | nil => exact ⟨[], .refl _, .nil⟩
  | cons a as ih =>
    obtain ⟨rs1, h1, h2⟩ := hsel a
    obtain ⟨rs2, h3, h4⟩ := ih
    refine ⟨rs1 ++ rs2, by rw [List.flatMap_cons]; exact h1.append h3, ?_⟩
    rw [List.flatMap_cons]
    refine List.rel_append ?_ h4
    refine forall2_imp_memR h2 ?_
    intro r e he hst
    have he' : e ∈ allPostings st.txns := by unfold regBooked at he; exact List.mem_of_mem_filter he
    obtain ⟨s1, s2, s3, ⟨t', s4, s5, _⟩, _⟩ := loaded_shown hw hres hst
    refine ⟨s1, ?_, ?_, ?_⟩
    · show ((txnOf (txnsFrom 0 st.txns) r).map (·.description)).getD [] = _
      rw [s4]; exact s5.2.1
    · show tagCategory (parseTags (((txnOf (txnsFrom 0 st.txns) r).map (·.notes)).getD [])) (parseTags (fin.heap r).notes) = _
      rw [s4, s3]
      have : (((some t').map (·.notes)).getD [] : List Str) = e.1.notes := s5.2.2.1
      rw [this]
    · show (fin.heap r).quantity.getD default = _
      rw [loaded_units hw hres hcf hc.amounts (inTs e he') hst]; rfl

/-! ## The flags -/

theorem flagPeriod_asked {l : List (Str × Str)} {per : Option Aggregate} (h : PeriodAsked l per) : flagPeriod l = per := by
  unfold flagPeriod
  cases h <;> simp [*]

/-- The function that gives the category of a posting. -/
def catFn (g : LedgerView) : Option CatBy → Option (PRef → Str)
  | none => none
  | some .payee => some g.view.payee
  | some .tag => some g.tagKey

theorem categoryOf_asked {g : LedgerView} {l : List (Str × Str)} {cat : Option CatBy} (h : CatAsked l cat) : categoryOf g l = catFn g cat := by
  unfold categoryOf catFn
  cases h <;> simp [*]

theorem catFn_isSome (g : LedgerView) (cat : Option CatBy) : (catFn g cat).isSome = cat.isSome := by
  rcases cat with _ | ⟨_ | _⟩ <;> rfl

theorem periodFormat_text (per : Option Aggregate) (t : Int) : periodText (per.map periodFormat) t = startText per t := by
  rcases per with _ | ⟨_ | _ | _ | _⟩ <;> rfl

theorem periodFormat_ok (per : Option Aggregate) : PeriodFormat (per.map periodFormat) := by
  unfold PeriodFormat
  rcases per with _ | ⟨_ | _ | _ | _⟩ <;> simp [periodFormat]

/-- The reducers of the flags. -/
def redOf (g : LedgerView) (per : Option Aggregate) (cat : Option CatBy) : Reducers := ⟨per.map Aggregate.red, catFn g cat⟩

theorem shows_period {g : LedgerView} {c : Com} {p : PRef} {e : PTxn × PPost} (h : PostShows g c p e) (per : Option Aggregate) (cat : Option CatBy) :
    periodOf (redOf g per cat) g.view p = startOf per e.1.posted ∧ keyOf (redOf g per cat) p = keyFor cat.isSome (catOf cat e) := by
  constructor
  · unfold periodOf redOf startOf
    cases per with
    | none => rfl
    | some a => show a.red (g.view.date p) = _; rw [h.date]
  · unfold keyOf redOf catFn catOf keyFor
    rcases cat with _ | ⟨_ | _⟩
    · rfl
    · show some (g.view.payee p) = _; rw [h.payee]; rfl
    · show some (g.tagKey p) = _; rw [h.tag]; rfl

theorem forall2_sum {α β : Type} {R : α → β → Prop} {f : α → Int} {g : β → Int} {l : List α} {m : List β} (h : List.Forall₂ R l m)
    (hf : ∀ a b, R a b → f a = g b) : (l.map f).sum = (m.map g).sum := by rw [forall2_map h hf]

section
variable {P : Install} {compile : Compile} {st : LoadState} {accts : List Acct} {g : LedgerView} {c : Com}

/-- The postings of a column are those of the files. -/
theorem opened_column (hO : Opened P compile st accts g) (hc : OneCom st accts c) (f : Filters) (recurse : Bool) (a : Str) :
    ∃ rs, (columnPostings compile g.view f (accts.map (·.fullName)) recurse a).Perm rs ∧
      List.Forall₂ (PostShows g c) rs (colPosts (accts.map (·.fullName)) compile f st.txns recurse a) := opened_posts hO hc f _

theorem opened_total (hO : Opened P compile st accts g) (hc : OneCom st accts c) (f : Filters) (recurse : Bool) (a : Str) :
    total ((columnPostings compile g.view f (accts.map (·.fullName)) recurse a).map g.view.qty) =
      ((colPosts (accts.map (·.fullName)) compile f st.txns recurse a).map fun e => unitsOf e.1 e.2).sum := by
  obtain ⟨rs, h1, h2⟩ := opened_column hO hc f recurse a
  unfold total
  rw [List.map_map, perm_sum_int (h1.map _)]
  exact forall2_sum h2 fun p e h => by show (g.view.qty p).int = _; rw [h.qty]

theorem opened_cell (hO : Opened P compile st accts g) (hc : OneCom st accts c) (f : Filters) (per : Option Aggregate) (cat : Option CatBy)
    (recurse cumulative : Bool) (a : Str) (t : Int) (s : Str) (hs : cat.isSome = false → s = []) :
    cellSum (redOf g per cat) g.view cumulative (columnPostings compile g.view f (accts.map (·.fullName)) recurse a) t (keyFor cat.isSome s) =
      unitsAt per cat cumulative (colPosts (accts.map (·.fullName)) compile f st.txns recurse a) t s := by
  obtain ⟨rs, h1, h2⟩ := opened_column hO hc f recurse a
  have hkey : ∀ e : PTxn × PPost, (keyFor cat.isSome (catOf cat e) = keyFor cat.isSome s ↔ catOf cat e = s) := by
    intro e
    unfold keyFor
    cases hcat : cat with
    | none =>
      have := hs (by rw [hcat]; rfl)
      simp [catOf, this]
    | some b => simp
  unfold cellSum unitsAt amountAt total
  cases cumulative with
  | true =>
    simp only [if_true]
    rw [List.map_map, perm_sum_int ((h1.filter _).map _)]
    refine forall2_sum (forall2_filter h2 ?_) fun p e h => by show (g.view.qty p).int = _; rw [h.qty]
    intro p e _ h
    rw [decide_eq_decide, (shows_period h per cat).1]
  | false =>
    simp only [Bool.false_eq_true, if_false]
    rw [List.map_map, perm_sum_int ((h1.filter _).map _)]
    refine forall2_sum (forall2_filter h2 ?_) fun p e h => by show (g.view.qty p).int = _; rw [h.qty]
    intro p e _ h
    rw [decide_eq_decide]
    unfold FallsIn
    rw [(shows_period h per cat).1, (shows_period h per cat).2, hkey]

theorem opened_occurs (hO : Opened P compile st accts g) (hc : OneCom st accts c) (f : Filters) (per : Option Aggregate) (cat : Option CatBy)
    (a : Str) (t : Int) (s : Str) :
    (occursAt (redOf g per cat) g.view (columnPostings compile g.view f (accts.map (·.fullName)) true a) t (keyFor cat.isSome s) ∧
      (cat.isSome = false → s = [])) ↔
    ∃ e ∈ colPosts (accts.map (·.fullName)) compile f st.txns true a, startOf per e.1.posted = t ∧ catOf cat e = s := by
  obtain ⟨rs, h1, h2⟩ := opened_column hO hc f true a
  have hkey : ∀ e : PTxn × PPost, (keyFor cat.isSome (catOf cat e) = keyFor cat.isSome s ∧ (cat.isSome = false → s = []) ↔ catOf cat e = s) := by
    intro e
    unfold keyFor
    cases hcat : cat with
    | none => simp [catOf, eq_comm]
    | some b => simp
  constructor
  · rintro ⟨⟨p, hp, hp1, hp2⟩, hs⟩
    obtain ⟨e, he, h⟩ := forall2_mem_left h2 p (h1.mem_iff.mp hp)
    refine ⟨e, he, by rw [← (shows_period h per cat).1]; exact hp1, (hkey e).mp ⟨?_, hs⟩⟩
    rw [← (shows_period h per cat).2]; exact hp2
  · rintro ⟨e, he, h3, h4⟩
    obtain ⟨p, hp, h⟩ := forall2_mem_right h2 e he
    obtain ⟨k1, k2⟩ := (hkey e).mpr h4
    exact ⟨⟨p, h1.mem_iff.mpr hp, by rw [(shows_period h per cat).1]; exact h3, by rw [(shows_period h per cat).2]; exact k1⟩, k2⟩

theorem opened_empty (hO : Opened P compile st accts g) (hc : OneCom st accts c) (f : Filters) (recurse : Bool) (a : Str) :
    columnPostings compile g.view f (accts.map (·.fullName)) recurse a ≠ [] ↔ colPosts (accts.map (·.fullName)) compile f st.txns recurse a ≠ [] := by
  obtain ⟨rs, h1, h2⟩ := opened_column hO hc f recurse a
  have e1 := h1.length_eq
  have e2 := h2.length_eq
  rw [← List.length_pos_iff, ← List.length_pos_iff, e1, e2]

end

/-! ## C169 -/

theorem keyFor_inj {cat : Option CatBy} {k : Option Str} {e : PTxn × PPost} (h : k = keyFor cat.isSome (catOf cat e)) : cat.isSome = false → catOf cat e = [] := by
  intro hc
  cases cat with
  | none => rfl
  | some b => cases hc

theorem forall2_of_map {α β γ : Type} {R : γ → β → Prop} {f : α → γ} {l : List α} {m : List β} (h : List.Forall₂ R (l.map f) m) : List.Forall₂ (fun a b => R (f a) b) l m :=
  List.forall₂_map_left_iff.mp h

/-- **C169** The aggregated register (`-w`, `-m`, `-q`, `-y`, `-bp`, `-bt`) from the files to its output, in a ledger of one commodity: when the
account is found, the filters are valid, something is selected, no category is empty and `-g` leaves no account out, it prints the report of
the account asked for in the format asked for. -/
theorem C169_aggregated_of_files (P : Install) (compile : Compile) (st : LoadState) (accts : List Acct) (g : LedgerView) (hO : Opened P compile st accts g)
    (hord : SortsBySize g) (c : Com) (hc : OneCom st accts c) (hdec : c.decimals ≤ 50)
    (fe : FlagEnv) (w : Str) (l : List (Str × Str)) (toks : List (List Str)) (tail rest : List Str) (arg r : Str) (hw : commandOf w = some .register)
    (hl : List.Forall₂ (Written fe (flagsOf .register)) l toks) (ht : Remaining tail (arg :: rest)) (hr : Means (accts.map (·.fullName)) arg r)
    (per : Option Aggregate) (hper : PeriodAsked l per) (cat : Option CatBy) (hcat : CatAsked l cat) (hreq : per.isSome = true ∨ cat.isSome = true)
    (hv : RegValid compile (filtersOf fe l)) (hbang : NoBang (filtersOf fe l).payee)
    (hcum : boolFlag l (str "c") = true → cat = none)
    (htop : ∀ accs : List Str, accs.Nodup → (∀ a ∈ accs, Shown169 (accts.map (·.fullName)) compile (filtersOf fe l) st.txns r a) →
      (accs.length : Int) ≤ fe.intFlag l (str "g") 5)
    (hsome : colPosts (accts.map (·.fullName)) compile (filtersOf fe l) st.txns true r ≠ [])
    (hempty : cat.isSome = true → ∀ e ∈ colPosts (accts.map (·.fullName)) compile (filtersOf fe l) st.txns true r, catOf cat e ≠ [])
    (htable : textFlag l (str "o") (str "text") ≠ str "csv" → textFlag l (str "o") (str "text") ≠ str "json" →
      (∀ e ∈ colPosts (accts.map (·.fullName)) compile (filtersOf fe l) st.txns true r,
        0 ≤ goYear (startOf per e.1.posted) ∧ goYear (startOf per e.1.posted) ≤ 9999) ∧
      ∀ a t s, Shown169 (accts.map (·.fullName)) compile (filtersOf fe l) st.txns r a →
        (unitsAt per cat (boolFlag l (str "c")) (colPosts (accts.map (·.fullName)) compile (filtersOf fe l) st.txns (boolFlag l (str "r")) a) t s).natAbs < 10 ^ 50) :
    ∃ out accs rows fields, coinMain fe g (w :: (toks.flatten ++ tail)) = .ok out ∧
      AggReport (accts.map (·.fullName)) compile (filtersOf fe l) st.txns per cat (boolFlag l (str "r")) r accs rows ∧
      List.Forall₂ (RowTexts (accts.map (·.fullName)) compile (filtersOf fe l) st.txns per cat (boolFlag l (str "r")) (boolFlag l (str "c")) c accs) rows fields ∧
      Presents (textFlag l (str "o") (str "text")) (r ++ ' ' :: c.id) per.isSome cat.isSome
        (accs.map (colName r (fe.intFlag l (str "l") 12))) fields out := by
  obtain ⟨e1, e2, e3, hcom, _, hA, hfuel, _, hone, _⟩ := opened_balance hO hc (filtersOf fe l)
  obtain ⟨hn, _, _, _, hroot⟩ := resolved_spec _ _ _ _ hA
  have hrm : r ∈ accts.map (·.fullName) := mustFind_mem hn hr
  have tr := TreeOK.of hA
  have x : AggCtx st.dflt st.decls accts g.links g.env compile g.view (filtersOf fe l) (redOf g per cat) r c g.fuel := by
    refine ⟨hA, hv, hbang, ?_, ?_, hrm, hone r, hfuel⟩
    · intro a ha y z hyz
      unfold redOf at ha
      obtain ⟨b, _, rfl⟩ := Option.map_eq_some_iff.mp ha
      exact red_mono b hyz
    · unfold redOf
      simp only [Option.isSome_map, catFn_isSome]
      exact hreq
  set names := accts.map (·.fullName) with hnames
  set f := filtersOf fe l with hf
  set red := redOf g per cat with hred
  have hredcat : red.category.isSome = cat.isSome := catFn_isSome g cat
  obtain ⟨ts, sorted0, hts, hsort0⟩ := bySize_exists g.env x (boolFlag l (str "r"))
  have hsort := hord ts ⟨sorted0, hsort0⟩
  -- the accounts with a column
  obtain ⟨ts', a1, a2, a3, a4⟩ := aggTotals_spec x (boolFlag l (str "r"))
  rw [hts] at a1; injection a1 with a1; subst a1
  have hshown : ∀ a, Shown169 names compile f st.txns r a ↔ a ∈ names ∧ InSub r a ∧ columnPostings compile g.view f names true a ≠ [] := by
    intro a
    unfold Shown169
    rw [opened_empty hO hc]
  have hsome' : columnPostings compile g.view f names true r ≠ [] := (opened_empty hO hc f true r).mpr hsome
  have hcum' : boolFlag l (str "c") = true → red.category = none := by
    intro h
    show catFn g cat = none
    rw [hcum h]; rfl
  have hempty' : ∀ p ∈ columnPostings compile g.view f names true r, keyOf red p ≠ some [] := by
    intro p hp hk
    obtain ⟨rs, h1, h2⟩ := opened_column hO hc f true r
    obtain ⟨e, he, h⟩ := forall2_mem_left h2 p (h1.mem_iff.mp hp)
    rw [hred, (shows_period h per cat).2] at hk
    cases hcs : cat.isSome with
    | true =>
      rw [hcs] at hk
      injection hk with hk
      exact hempty hcs e he hk
    | false => rw [hcs] at hk; cases hk
  have hlen : ∀ n : Nat, (fe.intFlag l (str "g") 5) = n → ts.length ≤ n := by
    intro n hn'
    have := htop (ts.map (·.1)) a2 (by
      intro a ha
      rw [hshown]
      obtain ⟨e, he, rfl⟩ := List.mem_map.mp ha
      obtain ⟨w1, w2, w3⟩ := a3 e he
      obtain ⟨m1, m2⟩ := (tr.mem_walk r hrm e.1).mp w1
      refine ⟨m1, m2, ?_⟩
      obtain ⟨y, ys, hy⟩ := List.exists_cons_of_ne_nil w2
      obtain ⟨k, hk⟩ := (w3.ok.ok y (by rw [hy]; simp)).key_exists
      obtain ⟨p, hp, _⟩ := (shownAt_eq tr compile g.view f red e.1 m1 _ _).mp ((w3.has y.time k).mp ⟨y, by rw [hy]; simp, rfl, hk⟩)
      exact List.ne_nil_of_mem hp)
    rw [List.length_map] at this
    omega
  have hpos := htop [] (by simp) (by simp)
  obtain ⟨n, hn'⟩ : ∃ n : Nat, fe.intFlag l (str "g") 5 = n := ⟨(fe.intFlag l (str "g") 5).toNat, by simp at hpos; omega⟩
  have hex : ∃ t k, occursAt red g.view (columnPostings compile g.view f names true r) t k := by
    obtain ⟨p, ps, hp⟩ := List.exists_cons_of_ne_nil hsome'
    exact ⟨_, _, p, by rw [hp]; simp, rfl, rfl⟩
  obtain ⟨cols, k1, k2, k3, k4⟩ := aggColumns_all x (boolFlag l (str "r")) (boolFlag l (str "c")) ts (g.order ts) hts hsort.1 n (hlen n hn') hex hcum'
  have hspec := aggColumns_spec x (boolFlag l (str "r")) (boolFlag l (str "c")) ts (g.order ts) hts hsort.1 n cols k1
  set accs := (g.order ts).map (·.1) with haccs
  have hcols : cols.map (·.1) = accs.map some := by rw [k3, haccs, List.map_map]; rfl
  -- what the rows are, in both cases
  have core : ∀ csv : Bool, ∃ rows, outputRows csv cols = .ok rows ∧
      AggReport names compile f st.txns per cat (boolFlag l (str "r")) r accs (rows.map fun row => (row.1, row.2.1)) ∧
      (∀ row ∈ rows, row.2.2 = accs.map fun a => some
        ⟨unitsAt per cat (boolFlag l (str "c")) (colPosts names compile f st.txns (boolFlag l (str "r")) a) row.1 row.2.1, c⟩) := by
    intro csv
    obtain ⟨cols', rows, h1, h2, h3, h4, h5, h6, h7, h8⟩ := C72_aggregated_values x (boolFlag l (str "r")) (boolFlag l (str "c")) csv ts (g.order ts) hts hsort n (hlen n hn') hcum' hsome' hempty'
    rw [k1] at h1; injection h1 with h1; subst h1
    refine ⟨rows, h2, ⟨?_, ?_, ?_, ?_, h6⟩, ?_⟩
    · intro a
      rw [hshown, ← h3 a, hcols]
      simp
    · rw [hcols] at h4
      exact List.Nodup.of_map _ h4
    · obtain ⟨hperm, mag, hmag, hpw⟩ := hsort
      rw [haccs, List.pairwise_map]
      refine List.Pairwise.imp_of_mem ?_ hpw
      intro y z hy hz hyz
      have iy := magnitude_total x _ ts hts (hperm.mem_iff.mp hy) (hmag y (hperm.mem_iff.mp hy))
      have iz := magnitude_total x _ ts hts (hperm.mem_iff.mp hz) (hmag z (hperm.mem_iff.mp hz))
      rw [opened_total hO hc] at iy iz
      rw [isBigger_eq, decide_eq_false_iff_not] at hyz
      rw [← iy, ← iz]
      omega
    · intro t s
      rw [h7, hredcat]
      exact opened_occurs hO hc f per cat r t s
    · intro row hrow
      rw [h8 row hrow]
      have hs : cat.isSome = false → row.2.1 = [] := by
        have := (h7 row.1 row.2.1).mp (List.mem_map.mpr ⟨row, hrow, rfl⟩)
        rw [hredcat] at this
        exact this.2
      have : accs = cols.map (fun e => e.1.getD []) := by
        have := congrArg (List.map (fun o : Option Str => o.getD [])) hcols
        rw [List.map_map, List.map_map] at this
        have e : accs.map ((fun o : Option Str => o.getD []) ∘ some) = accs := by
          conv_rhs => rw [← List.map_id accs]
          rfl
        rw [e] at this
        exact this.symm
      rw [this, List.map_map]
      apply List.map_congr_left
      intro e _
      show some _ = some _
      rw [hredcat, hred, opened_cell hO hc f per cat (boolFlag l (str "r")) (boolFlag l (str "c")) (e.1.getD []) row.1 row.2.1 hs]
  have hlabel : cols.map (fun e => columnLabel r (fe.intFlag l (str "l") 12) e.1) = accs.map (colName r (fe.intFlag l (str "l") 12)) := by
    have := congrArg (List.map (columnLabel r (fe.intFlag l (str "l") 12))) hcols
    rw [List.map_map, List.map_map] at this
    exact this
  have hstart : ∀ body, outputText (per.map periodFormat) (catFn g cat).isSome (columnLabel r (fe.intFlag l (str "l") 12)) (textFlag l (str "o") (str "text")) cols = .ok body →
      coinMain fe g (w :: (toks.flatten ++ tail)) = .ok (textOf (registerHead g l r) ++ body) := by
    intro body hbody
    unfold coinMain
    rw [dispatch_written hw hl ht]
    show registerMain fe g l (arg :: rest) = _
    unfold registerMain
    have hbb : (boolFlag l (str "bp") && boolFlag l (str "bt")) = false := by cases hcat <;> simp [*]
    simp only [hbb, Bool.false_eq_true, if_false]
    have hfind : g.find arg = .ok r := by
      unfold LedgerView.find
      rw [e2, e3]; exact hr
    rw [hfind]
    show (Except.bind (if _ then _ else _) _) = _
    have hagg : ((flagPeriod l).isSome || (categoryOf g l).isSome) = true := by
      rw [flagPeriod_asked hper, categoryOf_asked hcat, catFn_isSome]
      rcases hreq with h | h <;> simp [h]
    rw [if_pos hagg]
    unfold aggregatedMain
    rw [flagPeriod_asked hper, categoryOf_asked hcat, e1]
    show Except.bind (Except.bind (aggTotals g.env compile g.view g.links g.fuel f red _ r) _) _ = _
    rw [hts]
    show Except.bind (Except.bind (aggColumns g.env red (fe.intFlag l (str "g") 5) _ r (g.order ts)) _) _ = _
    rw [hn', k1]
    show Except.bind (outputText _ _ _ _ cols) _ = _
    rw [hbody]
    rfl
  have hfields : ∀ (rows : List (Int × Str × List (Option Amount))) (fields : List (List Str)), (∀ row ∈ rows, row.2.2 = accs.map fun a => some
        ⟨unitsAt per cat (boolFlag l (str "c")) (colPosts names compile f st.txns (boolFlag l (str "r")) a) row.1 row.2.1, c⟩) →
      List.Forall₂ (PlainRow (per.map periodFormat) cat.isSome) rows fields →
      List.Forall₂ (RowTexts names compile f st.txns per cat (boolFlag l (str "r")) (boolFlag l (str "c")) c accs) (rows.map fun row => (row.1, row.2.1)) fields := by
    intro rows fields hrows h
    rw [List.forall₂_map_left_iff]
    refine forall2_imp_mem h ?_
    rintro row hrow fs ⟨amounts, h1, h2⟩
    rw [hrows row hrow] at h1
    refine ⟨amounts, ?_, ?_⟩
    · refine (forall2_of_map h1).imp ?_
      rintro a s ⟨q, hq, hs⟩
      injection hq with hq
      rw [hq]; exact hs
    · rw [h2, periodFormat_text]
      simp only [Option.isSome_map]
  have hhead : registerHead g l r = if textFlag l (str "o") (str "text") = str "text" then [r ++ ' ' :: c.id] else [] := by
    unfold registerHead
    rw [hcom r hrm]
    split <;> simp [str]
  have hplain : ∃ rows, outputRows true cols = .ok rows ∧
      AggReport names compile f st.txns per cat (boolFlag l (str "r")) r accs (rows.map fun row => (row.1, row.2.1)) ∧
      ∃ rs fields, plainRows (per.map periodFormat) cat.isSome (columnLabel r (fe.intFlag l (str "l") 12)) cols = .ok rs ∧
        rs = (leadTexts per.isSome cat.isSome (str "Date") (str "Category") ++ accs.map (colName r (fe.intFlag l (str "l") 12))) :: fields ∧
        List.Forall₂ (RowTexts names compile f st.txns per cat (boolFlag l (str "r")) (boolFlag l (str "c")) c accs) (rows.map fun row => (row.1, row.2.1)) fields ∧
        csvRead (csvText rs) = some rs ∧ jsonLinesRead (jsonLines rs) = some (rs.map fun r => .arr (r.map JVal.str)) := by
    obtain ⟨rows, o1, o2, o3⟩ := core true
    obtain ⟨cols', rows', h1, h2, _, _, _, rs, fields, h6, h7, h8, h9, h10⟩ := C140_register_csv x (boolFlag l (str "r")) (boolFlag l (str "c")) ts (g.order ts) hts hsort n (hlen n hn')
      hcum' hsome' hempty' (per.map periodFormat) (by simp [hred, redOf]) (columnLabel r (fe.intFlag l (str "l") 12)) hdec
    rw [k1] at h1; injection h1 with h1; subst h1
    rw [o1] at h2; injection h2 with h2; subst h2
    rw [hredcat] at h6 h7 h8
    rw [hlabel, Option.isSome_map] at h7
    exact ⟨rows, o1, o2, rs, fields, h6, h7, hfields rows fields o3 h8, h9, h10⟩
  by_cases hjson : textFlag l (str "o") (str "text") = str "json"
  · obtain ⟨rows, o1, o2, rs, fields, h1, h2, h3, h4, h5⟩ := hplain
    refine ⟨jsonLines rs, accs, _, fields, ?_, o2, h3, ?_⟩
    · have hne : ¬ textFlag l (str "o") (str "text") = str "text" := by rw [hjson]; decide
      have := hstart (jsonLines rs) (by unfold outputText; rw [if_pos hjson, catFn_isSome, h1]; rfl)
      rw [hhead, if_neg hne] at this
      exact this
    · unfold Presents
      rw [if_pos hjson, ← h2]
      exact ⟨rfl, h5⟩
  · by_cases hcsv : textFlag l (str "o") (str "text") = str "csv"
    · obtain ⟨rows, o1, o2, rs, fields, h1, h2, h3, h4, h5⟩ := hplain
      refine ⟨csvText rs, accs, _, fields, ?_, o2, h3, ?_⟩
      · have hne : ¬ textFlag l (str "o") (str "text") = str "text" := by rw [hcsv]; decide
        have := hstart (csvText rs) (by unfold outputText; rw [if_neg hjson, if_pos hcsv, catFn_isSome, h1]; rfl)
        rw [hhead, if_neg hne] at this
        exact this
      · unfold Presents
        rw [if_neg hjson, if_pos hcsv, ← h2]
        exact ⟨rfl, h4⟩
    · obtain ⟨hyear, hsmall⟩ := htable hcsv hjson
      obtain ⟨rows, o1, o2, o3⟩ := core false
      obtain ⟨cols', rows', h1, h2, h3, h4⟩ := C139_register_table x (boolFlag l (str "r")) (boolFlag l (str "c")) ts (g.order ts) hts hsort n (hlen n hn')
        hcum' hsome' hempty' (per.map periodFormat) (periodFormat_ok per) (by simp [hred, redOf]) (columnLabel r (fe.intFlag l (str "l") 12)) hdec
      rw [k1] at h1; injection h1 with h1; subst h1
      rw [o1] at h2; injection h2 with h2; subst h2
      have occ : ∀ e ∈ cols, ∀ y ∈ e.2, ∀ k ∈ y.keys, occursAt red g.view (columnPostings compile g.view f names true r) y.time k := by
        intro e he y hy k hk
        exact (shownAt_eq tr compile g.view f red r hrm _ _).mp (((hspec e he).2 y.time k).mp ⟨y, hy, rfl, hk⟩)
      have file : ∀ t k, occursAt red g.view (columnPostings compile g.view f names true r) t k →
          ∃ e ∈ colPosts names compile f st.txns true r, startOf per e.1.posted = t ∧ k = keyFor cat.isSome (catOf cat e) := by
        rintro t k ⟨p, hp, hp1, hp2⟩
        obtain ⟨rs, g1, g2⟩ := opened_column hO hc f true r
        obtain ⟨e, he, h⟩ := forall2_mem_left g2 p (g1.mem_iff.mp hp)
        exact ⟨e, he, by rw [← (shows_period h per cat).1]; exact hp1, by rw [← (shows_period h per cat).2]; exact hp2.symm⟩
      obtain ⟨lines, ws, head, ls, g1, g2, g3, g4⟩ := h4 (by
        intro e he y hy
        obtain ⟨k, hk⟩ := ((hspec e he).1.ok y hy).key_exists
        obtain ⟨e', he', h5, _⟩ := file _ _ (occ e he y hy k hk)
        rw [← h5]
        exact hyear e' he') (by
        intro e he y hy kv hkv
        have hk : kv.1 ∈ y.keys := List.mem_map_of_mem hkv
        have ho := occ e he y hy kv.1 hk
        obtain ⟨e', he', h5, h6⟩ := file _ _ ho
        have hname : ∃ a, e.1 = some a ∧ a ∈ accs := by
          have : e.1 ∈ cols.map (·.1) := List.mem_map_of_mem he
          rw [hcols] at this
          obtain ⟨a, ha, h⟩ := List.mem_map.mp this
          exact ⟨a, h.symm, ha⟩
        obtain ⟨a, ha, ham⟩ := hname
        have hv1 : kv.2.int = e.2.val y.time kv.1 := by
          rw [((hspec e he).1.at_time hy kv.1).1]
          exact (keyVal_of_mem ((hspec e he).1.ok y hy).vals.nodup hkv).symm
        rw [hv1, k4 e he a ha _ _ ho, h6, hred, opened_cell hO hc f per cat _ _ a _ _ (keyFor_inj h6)]
        exact hsmall a _ _ ((o2.cols a).mp ham))
      have hfm : ∃ fields, List.Forall₂ (PlainRow (per.map periodFormat) cat.isSome) rows fields ∧
          List.Forall₂ (fun fs line => ∃ cells, TableLine ws cells line ∧ List.Forall₂ Padded fs cells) fields ls := by
        rw [hredcat] at g4
        clear hyear hsmall htable o1 o2 o3 g1 g2 h3 h4
        induction g4 with
        | nil => exact ⟨[], .nil, .nil⟩
        | cons hab _ ih =>
          obtain ⟨fields, i1, i2⟩ := ih
          obtain ⟨cells, amounts, j1, j2, j3⟩ := hab
          exact ⟨_ :: fields, .cons ⟨amounts, j2, rfl⟩ i1, .cons ⟨cells, j1, j3⟩ i2⟩
      obtain ⟨fields, i1, i2⟩ := hfm
      refine ⟨textOf (registerHead g l r) ++ textOf lines, accs, _, fields, hstart _ ?_, o2, hfields rows fields o3 i1, ?_⟩
      · unfold outputText
        rw [if_neg hjson, if_neg hcsv, g1]; rfl
      · unfold Presents
        rw [if_neg hjson, if_neg hcsv]
        refine ⟨ws, head, ls, ?_, ?_, i2⟩
        · rw [hhead, g2]
          unfold textOf
          rw [List.flatMap_append]
        · rw [hredcat, hlabel, Option.isSome_map] at g3
          exact g3

/-- **C169** `-bp` and `-bt` exclude each other. -/
theorem C169_not_both (fe : FlagEnv) (g : LedgerView) (w : Str) (l : List (Str × Str)) (toks : List (List Str)) (tail args : List Str) (hw : commandOf w = some .register)
    (hl : List.Forall₂ (Written fe (flagsOf .register)) l toks) (ht : Remaining tail args) (h1 : boolFlag l (str "bp") = true) (h2 : boolFlag l (str "bt") = true) :
    coinMain fe g (w :: (toks.flatten ++ tail)) = .error .exit := by
  unfold coinMain
  rw [dispatch_written hw hl ht]
  show registerMain fe g l args = _
  unfold registerMain
  cases args with
  | nil => rfl
  | cons a rest => simp [h1, h2]

/-! ## A ledger -/

/-- The size of a column. -/
def sizeOf169 (conv : Conv) (e : Str × TS) : Amount := ((cumMagnitude conv e.2).toOption.join).getD default

/-- A sort by size. -/
def sortBySize (conv : Conv) (ts : List (Str × TS)) : List (Str × TS) := stableSort (fun a b => (sizeOf169 conv a).isBigger (sizeOf169 conv b)) ts

theorem sortBySize_sorts {g : LedgerView} (h : g.order = sortBySize g.env.conv) : SortsBySize g := by
  intro ts hs
  obtain ⟨s, hp, mag, hmag, _⟩ := hs
  rw [h]
  have hsw : StrictWeak (fun a b => (sizeOf169 g.env.conv a).isBigger (sizeOf169 g.env.conv b)) := by
    constructor
    · intro a b; simp only [isBigger_eq, decide_eq_true_eq, decide_eq_false_iff_not]; omega
    · intro a b d; simp only [isBigger_eq, decide_eq_false_iff_not]; omega
  refine ⟨stableSort_perm _ ts, sizeOf169 g.env.conv, ?_, stableSort_sorted _ hsw ts⟩
  intro e he
  rw [hmag e he]
  unfold sizeOf169
  rw [hmag e he]
  rfl

theorem Opened.withOrder {P : Install} {compile : Compile} {st : LoadState} {accts : List Acct} {g : LedgerView} (hO : Opened P compile st accts g)
    (order : List (Str × TS) → List (Str × TS)) : Opened P compile st accts { g with order := order } := by
  obtain ⟨hl, items, db, ord, fuel, L, walk, fin, sorted, bound, location, order', h1, h2, h3, h4, h5, h6, h7, h8, h9, rfl⟩ := hO
  exact ⟨hl, items, db, ord, fuel, L, walk, fin, sorted, bound, location, order, h1, h2, h3, h4, h5, h6, h7, h8, h9, rfl⟩

/-- The sample ledger of C156 with a sort. -/
def aggLedger : LedgerView := { progView (fun _ => none) with order := sortBySize (progView fun _ => none).env.conv }

/-- Weeks and payees of the subtree `Assets`. -/
theorem agg_prints : (coinMain cmdFlags aggLedger [str "reg", str "-w", str "-bp", str "-r", str "Assets"]).toOption =
    some (str "Assets CAD\n           |      | Assets | :Cash\n2019/12/29 | Shop |  -3.50 | -3.50\n2020/01/05 |  Pay |  10.00 | 10.00\n") := by
  decide +kernel

theorem agg_in (ts : List PTxn) (f : Filters) (recurse : Bool) (a : Str) {e : PTxn × PPost}
    (h : e ∈ colPosts (progAccts.map (·.fullName)) (fun _ => none) f ts recurse a) : e ∈ allPostings ts := by
  unfold colPosts at h
  obtain ⟨b, _, h⟩ := List.mem_flatMap.mp h
  unfold regBooked at h
  exact List.mem_of_mem_filter h

theorem agg_length (ts : List PTxn) (f : Filters) (recurse : Bool) (a : Str) :
    (colPosts (progAccts.map (·.fullName)) (fun _ => none) f ts recurse a).length ≤ 5 * (allPostings ts).length := by
  have h1 : ∀ b, (regBooked (progAccts.map (·.fullName)) (fun _ => none) f ts b).length ≤ (allPostings ts).length := fun b => List.length_filter_le _ _
  have h2 : ∀ l : List Str, (l.flatMap (regBooked (progAccts.map (·.fullName)) (fun _ => none) f ts)).length ≤ l.length * (allPostings ts).length := by
    intro l
    induction l with
    | nil => simp
    | cons b l ih =>
      rw [List.flatMap_cons, List.length_append, List.length_cons, Nat.succ_mul]
      have := h1 b
      omega
  refine (h2 _).trans (Nat.mul_le_mul_right _ ?_)
  split
  · have h3 : (progAccts.map (·.fullName)).length = 5 := by decide +kernel
    rw [← h3]
    unfold familyOf
    exact List.length_filter_le _ _
  · simp

theorem sum_bound (m : Nat) : ∀ l : List Int, (∀ x ∈ l, x.natAbs ≤ m) → l.sum.natAbs ≤ l.length * m
  | [], _ => by simp
  | x :: l, h => by
    have := sum_bound m l fun y hy => h y (by simp [hy])
    have := h x (by simp)
    rw [List.sum_cons, List.length_cons, Nat.succ_mul]
    omega

/-- Non-vacuity: all hypotheses of C169 hold of this run. -/
example : ∃ out accs rows fields, coinMain cmdFlags aggLedger [str "reg", str "-w", str "-bp", str "-r", str "Assets"] = .ok out ∧
    AggReport (progAccts.map (·.fullName)) (fun _ => none) (filtersOf cmdFlags [(str "w", str "true"), (str "bp", str "true"), (str "r", str "true")]) progState.txns
      (some .weekly) (some .payee) true (str "Assets") accs rows ∧
    List.Forall₂ (RowTexts (progAccts.map (·.fullName)) (fun _ => none) (filtersOf cmdFlags [(str "w", str "true"), (str "bp", str "true"), (str "r", str "true")]) progState.txns
      (some .weekly) (some .payee) true false progCad accs) rows fields ∧
    Presents (str "text") (str "Assets CAD") true true (accs.map (colName (str "Assets") 12)) fields out := by
  have hall : ∀ e ∈ allPostings progState.txns, e.1.description ≠ [] ∧ (0 ≤ goYear (Aggregate.weekly.red e.1.posted) ∧ goYear (Aggregate.weekly.red e.1.posted) ≤ 9999) ∧
      (unitsOf e.1 e.2).natAbs ≤ 1000 := by decide +kernel
  have hm : Means (progAccts.map (·.fullName)) (str "Assets") (str "Assets") := ok_of_opt (by decide +kernel)
  refine C169_aggregated_of_files progInstall (fun _ => none) progState progAccts aggLedger ((prog_opens _).1.withOrder _) (sortBySize_sorts rfl) progCad
    (prog_opens fun _ => none).2 (by decide) cmdFlags (str "reg") [(str "w", str "true"), (str "bp", str "true"), (str "r", str "true")] [[str "-w"], [str "-bp"], [str "-r"]] [str "Assets"] [] (str "Assets") (str "Assets") (by decide)
    (.cons (.bare (d := ['-']) (.inl rfl) (by decide)) (.cons (.bare (d := ['-']) (.inl rfl) (by decide)) (.cons (.bare (d := ['-']) (.inl rfl) (by decide)) .nil)))
    (.plain (.inr (by decide))) hm (some .weekly) (.week (by decide)) (some .payee) (.payee (by decide) (by decide)) (.inl rfl)
    ⟨fun h => absurd (by decide +kernel) h, fun h => absurd (by decide +kernel) h⟩ (by unfold NoBang; decide +kernel) (fun h => absurd h (by decide)) ?_ ?_ ?_ ?_
  · intro accs hn hs
    have h5 : (progAccts.map (·.fullName)).length = 5 := by decide +kernel
    have : accs.length ≤ (progAccts.map (·.fullName)).length := (List.subperm_of_subset hn fun a ha => (hs a ha).1).length_le
    rw [h5] at this
    have hg : cmdFlags.intFlag [(str "w", str "true"), (str "bp", str "true"), (str "r", str "true")] (str "g") 5 = 5 := by decide +kernel
    rw [hg]
    exact_mod_cast this
  · have he : ∃ e ∈ allPostings progState.txns, mustFindAccount (progAccts.map (·.fullName)) (patternMatches e.2.account) e.2.account = .ok (str "Assets:Cash") := by
      refine ⟨(⟨737428, [], str "Pay", [], [⟨str "Cash", some ⟨1000, progCad⟩, none, []⟩, ⟨str "Unbalanced", some ⟨-1000, progCad⟩, none, []⟩]⟩,
        ⟨str "Cash", some ⟨1000, progCad⟩, none, []⟩), by decide +kernel, ok_of_opt (by decide +kernel)⟩
    obtain ⟨e, he, hme⟩ := he
    refine List.ne_nil_of_mem (a := e) ?_
    classical
    unfold colPosts
    refine List.mem_flatMap.mpr ⟨str "Assets:Cash", ?_, ?_⟩
    · rw [if_pos rfl]
      unfold familyOf
      refine List.mem_filter.mpr ⟨by decide +kernel, (decide_eq_true_iff (p := InSub _ _)).mpr (Or.inr ⟨by decide, .inr ⟨by decide, str "Cash", by decide⟩⟩)⟩
    · unfold regBooked
      refine List.mem_filter.mpr ⟨he, (decide_eq_true_iff (p := _ ∧ _)).mpr ⟨hme, ?_, ?_, ?_, ?_⟩⟩
      · intro b hb; cases hb
      · intro b hb; cases hb
      · intro h; exact absurd (by decide +kernel) h
      · intro h; exact absurd (by decide +kernel) h
  · intro _ e he
    exact (hall e (agg_in _ _ _ _ he)).1
  · intro _ _
    refine ⟨fun e he => (hall e (agg_in _ _ _ _ he)).2.1, ?_⟩
    intro a t s _
    unfold unitsAt
    have h1 := sum_bound 1000 (((colPosts (progAccts.map (·.fullName)) (fun _ => none) (filtersOf cmdFlags [(str "w", str "true"), (str "bp", str "true"), (str "r", str "true")]) progState.txns
      (boolFlag [(str "w", str "true"), (str "bp", str "true"), (str "r", str "true")] (str "r")) a).filter fun e =>
        if boolFlag [(str "w", str "true"), (str "bp", str "true"), (str "r", str "true")] (str "c") then decide (startOf (some .weekly) e.1.posted ≤ t)
        else decide (startOf (some .weekly) e.1.posted = t ∧ catOf (some .payee) e = s)).map fun e => unitsOf e.1 e.2) (by
      intro x hx
      obtain ⟨e, he, rfl⟩ := List.mem_map.mp hx
      exact (hall e (agg_in _ _ _ _ (List.mem_of_mem_filter he))).2.2)
    rw [List.length_map] at h1
    have h2 := List.length_filter_le (fun e : PTxn × PPost =>
        if boolFlag [(str "w", str "true"), (str "bp", str "true"), (str "r", str "true")] (str "c") then decide (startOf (some .weekly) e.1.posted ≤ t)
        else decide (startOf (some .weekly) e.1.posted = t ∧ catOf (some .payee) e = s)) (colPosts (progAccts.map (·.fullName)) (fun _ => none) (filtersOf cmdFlags [(str "w", str "true"), (str "bp", str "true"), (str "r", str "true")]) progState.txns
      (boolFlag [(str "w", str "true"), (str "bp", str "true"), (str "r", str "true")] (str "r")) a)
    have h3 := agg_length progState.txns (filtersOf cmdFlags [(str "w", str "true"), (str "bp", str "true"), (str "r", str "true")])
      (boolFlag [(str "w", str "true"), (str "bp", str "true"), (str "r", str "true")] (str "r")) a
    have h4 : (allPostings progState.txns).length = 4 := by decide +kernel
    have h5 : (20000 : Nat) < 10 ^ 50 := by norm_num
    rw [h4] at h3
    exact lt_of_le_of_lt (h1.trans (Nat.mul_le_mul_right 1000 (h2.trans h3))) h5

end Verif
