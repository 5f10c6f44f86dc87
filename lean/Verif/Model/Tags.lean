import Verif.Model.Parser
import Verif.Model.Select
import Verif.Go.Sort
/-
Model of tags.go. A `Tags` map is a list of key/value pairs with distinct keys; nil and the empty map are both `[]`
(`Includes`, `Value`, `Keys` and `Match` treat them alike).
-/
namespace Verif

/-- The characters of a key (tags.go:9): word characters, dash, slash. -/
def isKeyChar (c : Char) : Bool := isWord c || decide (c = '-') || decide (c = '/')

/-- The optional value (tags.go:9): `:\s*(?P<value>[^,]+\S)\s*(,|$)`. -/
def tagValueRe : Re :=
  .cat [.ch ':', .star .ws, .grp (str "value") (.seq (.plus (.cls (fun c => decide (c ≠ ',')))) .notWs), .star .ws, .alt (.ch ',') .eot]

/-- `tagREX` (tags.go:9). -/
def tagRe : Re := .cat [.ch '#', .grp (str "key") (.plus (.cls isKeyChar)), .opt tagValueRe]

abbrev TagMap := List (Str × Str)

/-- `tags[key] = value`. -/
def putTag (m : TagMap) (e : Str × Str) : TagMap := e :: m.filter (fun x => decide (x.1 ≠ e.1))

/-- The matches in one line, left to right (tags.go:20-22). -/
def lineTags (line : Str) : TagMap := (tagRe.findAll line.length line).map (fun c => (c.get (str "key"), c.get (str "value")))

/-- `ParseTags` (tags.go:17-29). -/
def parseTags (lines : List Str) : TagMap := (lines.flatMap lineTags).foldl putTag []

/-- `t[key]` with ok. -/
def tagOf (m : TagMap) (k : Str) : Option Str := (m.find? (fun e => decide (e.1 = k))).map (·.2)

/-- `Includes` (tags.go:31-37), `Value` (tags.go:39-44). -/
def tagIncludes (m : TagMap) (k : Str) : Bool := (tagOf m k).isSome
def tagValue (m : TagMap) (k : Str) : Str := (tagOf m k).getD []

/-- `Keys` (tags.go:46-52). -/
def tagKeys (m : TagMap) : List Str := sortStrings (m.map (·.1))

/-- `KeysAndValues` (tags.go:54-64). -/
def tagKVs (m : TagMap) : List Str := sortStrings (m.map (fun e => if e.2 = [] then e.1 else e.1 ++ ':' :: e.2))

/-- `With` (tags.go:66-75): `t2` overrides. -/
def tagsWith (m m2 : TagMap) : TagMap := m2.foldl putTag m

/-- The map as `Select` sees it: nil when there are no tags (tags.go:25-27). -/
def TagMap.toTags (m : TagMap) : Tags := if m = [] then none else some m

/-- `mustParseTags` of the modify command (cmd/coin/modify.go:150-162): the tag line to be added. -/
def mustParseTags (val : Str) : Except Fault Str :=
  let tags := parseTags [val]
  if tags = [] then .error .exit
  else .ok (joinWith (str ", ") ((tagKeys tags).map (fun k => '#' :: k ++ (if tagValue tags k = [] then [] else ':' :: tagValue tags k))))

/-- `addTagLine` (cmd/coin/modify.go:164-173). -/
def addTagLine : List Str → Str → List Str
  | [], l => [l]
  | n :: ns, l => if blen n + blen l < lineMaxTags then (n ++ ' ' :: l) :: ns else n :: ns ++ [l]
where
  /-- `coin.TRANSACTION_LINE_MAX` (transaction.go:16). -/
  lineMaxTags : Nat := 80

end Verif
