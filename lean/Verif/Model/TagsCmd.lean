import Verif.Model.Tags
/-
Model of the tags command (cmd/coin/tags.go) and of the tag categories of the register (cmd/coin/totals.go:665-674).

A Go map is a list of entries with distinct keys, in the order in which one loop over the map visits them; another loop may visit
them in another order (`ord`).
-/
namespace Verif

/-- `tags.reduce` (cmd/coin/totals.go:665-674): the category of a posting with tags `p` of a transaction with tags `t`. -/
def tagCategory (t p : TagMap) : Str :=
  let tags := tagsWith t p
  if tags = [] then str "<no-tags>" else joinWith (str ",") (tagKVs tags)

/-- What the tags command reads of a transaction: its tags, and the tags and the account's full name of each posting. -/
structure TaggedTxn where
  tags : TagMap
  posts : List (TagMap × Str)

/-- `map[string][]string`. -/
abbrev Multi := List (Str × List Str)

/-- Map lookup, nil when absent. -/
def multiGet (m : Multi) (k : Str) : List Str :=
  match m.find? (fun e => decide (e.1 = k)) with
  | none => []
  | some e => e.2

/-- Map assignment. -/
def multiSet : Multi → Str → List Str → Multi
  | [], k, l => [(k, l)]
  | e :: m, k, l => if e.1 = k then (k, l) :: m else e :: multiSet m k l

/-- `add` (cmd/coin/tags.go:110-117). -/
def addOnce (l : List Str) (key : Str) : List Str := if key ∈ l then l else l ++ [key]

/-- `cmd.results` and `cmd.accounts`. -/
structure TagsState where
  results : Multi
  accounts : Multi

/-- The body of the loop of `collectKeys` (cmd/coin/tags.go:78-88); `nrex` is the expression's `MatchString`. -/
def collectKey (nrex : Option (Str → Bool)) (fAccounts : Bool) (accounts : List Str) (st : TagsState) (e : Str × Str) : TagsState :=
  if (match nrex with | none => true | some m => m e.1) then
    let results := multiSet st.results e.1 (addOnce (multiGet st.results e.1) e.2)
    if fAccounts then ⟨results, multiSet st.accounts e.1 (accounts.foldl addOnce (multiGet st.accounts e.1))⟩
    else ⟨results, st.accounts⟩
  else st

/-- `collectKeys` (cmd/coin/tags.go:77-90). -/
def collectKeys (nrex : Option (Str → Bool)) (fAccounts : Bool) (st : TagsState) (tags : TagMap) (accounts : List Str) : TagsState :=
  tags.foldl (collectKey nrex fAccounts accounts) st

/-- One transaction (cmd/coin/tags.go:49-57). -/
def collectTxn (nrex : Option (Str → Bool)) (fAccounts : Bool) (st : TagsState) (t : TaggedTxn) : TagsState :=
  let st := t.posts.foldl (fun st p => collectKeys nrex fAccounts st p.1 [p.2]) st
  collectKeys nrex fAccounts st t.tags (if fAccounts then t.posts.map (·.2) else [])

/-- `clean` (cmd/coin/tags.go:101-107); `list[0]` of an empty list panics. -/
def cleanValues (l : List Str) : Except Fault (List Str) :=
  match sortStrings l with
  | [] => .error .panic
  | v :: vs => .ok (if v = [] then vs else v :: vs)

/-- `sortAndClean` (cmd/coin/tags.go:92-99): the keys, visited in the order `ord`, and the cleaned lists. -/
def sortAndClean (ord : List Str → List Str) (m : Multi) : Except Fault (List Str × Multi) :=
  (m.mapM (fun e => (cleanValues e.2).map (fun l => (e.1, l)))).bind fun m => .ok (sortStrings (ord (m.map (·.1))), m)

/-- The lines written for one key (cmd/coin/tags.go:59-73). -/
def tagsKeyText (fValues fAccounts : Bool) (results accounts : Multi) (k : Str) : Str :=
  let vs := joinWith (str "\", \"") (multiGet results k)
  let colon := if vs = [] then [] else str ":"
  (if fValues && !decide (vs = []) then k ++ colon ++ str " \"" ++ vs ++ str "\"\n" else k ++ colon ++ str "\n") ++
  (if fAccounts then (multiGet accounts k).flatMap (fun a => '\t' :: a ++ ['\n']) else [])

/-- `(*cmdTags).execute` (cmd/coin/tags.go:42-75) after the expression is compiled. -/
def tagsExecute (nrex : Option (Str → Bool)) (fValues fAccounts : Bool) (ord : List Str → List Str) (txns : List TaggedTxn) : Except Fault Str :=
  let st := txns.foldl (collectTxn nrex fAccounts) ⟨[], []⟩
  (sortAndClean ord st.results).bind fun r => .ok (r.1.flatMap (tagsKeyText fValues fAccounts r.2 st.accounts))

end Verif
