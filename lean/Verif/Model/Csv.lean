import Verif.Model.Import
import Verif.Model.Balance
/-
Model of cmd/csv2coin: the values a source extracts from a row (rules.go), the transaction made from a row and the command (main.go),
and reading and dumping csv.rules (rules.go).

`encoding/csv` is a library: a file is modelled by the records it contains. Regular expressions written in csv.rules are a parameter:
`CsvEnv.rx` gives, for the text of an expression and a value, the groups of its leftmost match.
-/
namespace Verif

/-! ### Fields (cmd/csv2coin/rules.go) -/

/-- `Field` (rules.go:18-23); `re` is the text of the expression. -/
structure CField where
  idx : Option Int
  out : Str
  cond : Str
  re : Option Str
  deriving DecidableEq, Repr

/-- A compiled expression: `Match` (rex/rex.go:36-59) of a value, nil or a map from group names and numbers. -/
abbrev RxMatch := Str → Str → Option (Str → Str)

/-- `s[i]` of a slice, for any int. -/
def indexRow (row : List Str) (i : Int) : Except Fault Str :=
  if i < 0 then .error .panic else match row[i.toNat]? with | some s => .ok s | none => .error .panic

/-- The loop over the parts of a template after the first one (rules.go:45-55 and 69-75): `one` is what becomes of a part. -/
def expandParts (one : Str → Except Fault Str) : List Str → Except Fault (List Str)
  | [] => .ok []
  | p :: ps => (one p).bind fun s => (expandParts one ps).bind fun ss => .ok (s :: ss)

/-- A template: split at `$`, the parts after the first one replaced (rules.go:40-56 and 64-76). -/
def expand (one : Str → Except Fault Str) (out : Str) : Except Fault Str :=
  match splitOn '$' out with
  | [] => .ok out
  | [_] => .ok out
  | p :: ps => (expandParts one ps).bind fun ss => .ok (joinWith [] (p :: ss))

/-- A part of the template of a direct field (rules.go:70-74); `p[0]` panics on an empty part. -/
def directPart (groups : Str → Str) : Str → Except Fault Str
  | [] => .error .panic
  | c :: p => if isDigit c then .ok (groups [c] ++ p) else .ok (c :: p)

/-- `directField` (rules.go:59-77). -/
def directField (rx : RxMatch) (re out s : Str) : Except Fault Str :=
  match rx re s with
  | none => .ok []
  | some groups => expand (directPart groups) out

/-- The text before and after the first `}` (`IndexByte`, rules.go:47-50). -/
def cutBrace : Str → Option (Str × Str)
  | [] => none
  | c :: s => if c = '}' then some ([], s) else (cutBrace s).map fun r => (c :: r.1, r.2)

/-- A part of the template of a derived field (rules.go:46-54); `value` is the value of a named field. -/
def derivedPart (value : Str → Except Fault Str) : Str → Except Fault Str
  | [] => .error .panic
  | c :: p =>
    if c = '{' then
      match cutBrace p with
      | some r => (value r.1).bind fun v => .ok (v ++ r.2)
      | none => .ok (c :: p)
    else .ok (c :: p)

/-- `Fields.Value` (rules.go:81-88): the first value that is not empty. -/
def firstValue (one : CField → Except Fault Str) : List CField → Except Fault Str
  | [] => .ok []
  | f :: fs => (one f).bind fun v => if v ≠ [] then .ok v else firstValue one fs

/-- The condition of a derived field (rules.go:37-39). -/
def condHolds (rx : RxMatch) (value : Str → Except Fault Str) (f : CField) : Except Fault Bool :=
  if f.cond = [] then .ok true
  else (value f.cond).bind fun v => match f.re with
    | none => .error .panic
    | some re => .ok (rx re v).isSome

/-- The fields of a source: names and fields in the order of the file; the map entry of a name lists its fields in that order
(rules.go:132). -/
abbrev SrcFields := List (Str × CField)

/-- `fields[name]`. -/
def SrcFields.get (fs : SrcFields) (name : Str) : List CField := (fs.filter (fun e => decide (e.1 = name))).map (·.2)

/-- `derivedField` (rules.go:36-57). -/
def derivedField (rx : RxMatch) (value : Str → Except Fault Str) (f : CField) : Except Fault Str :=
  (condHolds rx value f).bind fun ok => if ok then expand (derivedPart value) f.out else .ok []

/-- `(*Field).Value` (rules.go:25-34). The number bounds the depth of the calls; without it the recursion need not end. -/
def fieldValue (rx : RxMatch) (fs : SrcFields) (row : List Str) : Nat → CField → Except Fault Str
  | 0, _ => .error .loop
  | n + 1, f => match f.idx with
    | some i => (indexRow row i).bind fun s => match f.re with
      | none => .ok s
      | some re => directField rx re f.out s
    | none => derivedField rx (fun name => firstValue (fieldValue rx fs row n) (fs.get name)) f

/-- The value of a name for a row (rules.go:81-88 on `fields[name]`). -/
def nameValue (rx : RxMatch) (fs : SrcFields) (row : List Str) (fuel : Nat) (name : Str) : Except Fault Str :=
  firstValue (fieldValue rx fs row fuel) (fs.get name)

/-! ### Transactions (cmd/csv2coin/main.go) -/

/-- What the conversion of rows reads: expressions, the rules, commodities by id and by symbol, the commodity of an account, the account
tree, the `Unbalanced` account; `fuel` bounds the depth of recursive calls. -/
structure CsvEnv where
  rx : RxMatch
  matcher : Str → Str → Bool
  rules : Option RuleIndex
  byOfx : Str → Option Str
  comById : Str → Option Com
  comBySymbol : Str → Option Com
  com : Str → Com
  children : Str → List Str
  unbalanced : Str
  fuel : Nat

/-- `Commodities[s]`, else `CommoditiesBySymbol[s]` (main.go:154-158 and 173-177), else the command ends. -/
def findCommodity (env : CsvEnv) (s : Str) : Except Fault Com :=
  match env.comById s with
  | some c => .ok c
  | none => match env.comBySymbol s with
    | some c => .ok c
    | none => .error .exit

/-- The closure of `findAccountForCommodity` (main.go:204-208) called on the accounts of a walk. Commodities are compared by value, the
code compares pointers; each commodity is declared once. -/
def pickAccount (env : CsvEnv) (c : Com) (account : Str) : List Str → Str
  | [] => account
  | a :: l => pickAccount env c (if env.com a = c ∧ account = env.unbalanced then a else account) l

/-- `findAccountForCommodity` (main.go:202-210). -/
def findAccountForCommodity (env : CsvEnv) (c : Com) (root : Str) : Str :=
  pickAccount env c env.unbalanced (subtreePost env.children env.fuel root)

/-- Two digits (`getnum(value, true)` of package time). -/
def two (a b : Char) : Int := (strNat [a, b] : Nat)

/-- `time.Parse("2006/01/02", s)` (main.go:136): four, two and two digits, a month of the year and a day of the month; the day number. -/
def parseDay : Str → Except Fault Int
  | [y1, y2, y3, y4, s1, m1, m2, s2, d1, d2] =>
    if [y1, y2, y3, y4, m1, m2, d1, d2].all isDigit ∧ s1 = '/' ∧ s2 = '/' then
      let y : Int := (strNat [y1, y2, y3, y4] : Nat)
      let m := two m1 m2
      let d := two d1 d2
      if 1 ≤ m ∧ m ≤ 12 ∧ 1 ≤ d ∧ d ≤ daysIn (isLeap y) m then .ok (goDate y m d) else .error .exit
    else .error .exit
  | _ => .error .exit

/-- `MustParseAmount` (amount.go): an error panics. -/
def mustParseAmount (s : Str) (c : Com) : Except Fault Amount :=
  match parseAmount s c with
  | .ok a => .ok a
  | .error _ => .error .panic

/-- The commodity of the amount (main.go:151-159). -/
def rowCommodity (env : CsvEnv) (value : Str → Except Fault Str) (dest : Str) : Except Fault Com :=
  (value (str "currency")).bind fun cur => if cur ≠ [] then findCommodity env cur else .ok (env.com dest)

/-- The amount (main.go:149-162). -/
def rowAmount (env : CsvEnv) (value : Str → Except Fault Str) (dest : Str) : Except Fault Amount :=
  (value (str "amount")).bind fun amt =>
  if amt ≠ [] then (rowCommodity env value dest).bind fun c => mustParseAmount amt c else .error .exit

/-- The quantity of a traded commodity, if any (main.go:166-182). -/
def rowQuantity (env : CsvEnv) (value : Str → Except Fault Str) : Except Fault (Option Amount) :=
  (value (str "symbol")).bind fun sym =>
  if sym = [] then .ok none
  else (findCommodity env sym).bind fun c =>
    (value (str "quantity")).bind fun q =>
    if q ≠ [] then (mustParseAmount q c).bind fun a => .ok (some a) else .ok none

/-- `quantity.Sign()*amount.Sign() > 0` makes the quantity the opposite (main.go:192-194). -/
def flipQuantity (quantity amount : Amount) : Amount :=
  if 0 < quantity.int.sign * amount.int.sign then quantity.negated else quantity

/-- The postings (main.go:166-199): one amount, or a conversion. -/
def rowPostings (env : CsvEnv) (account dest : Str) (amount : Amount) (quantity : Option Amount) (t : ITxn) : ITxn :=
  match quantity with
  | none => t.post (findAccountForCommodity env amount.com account) dest amount none
  | some q =>
    let q := flipQuantity q amount
    t.postConversion (findAccountForCommodity env q.com account) q none dest amount none

/-- The transaction without its postings (main.go:135-147). -/
def rowHead (value : Str → Except Fault Str) (description : Str) (notes : List Str) : Except Fault ITxn :=
  (value (str "date")).bind fun date =>
  (parseDay date).bind fun day =>
  (value (str "note")).bind fun note =>
  .ok ⟨⟨day * 86400, 0⟩, [], description, if trimWords note ≠ [] then [trimWords note] else notes, []⟩

/-- The rest of `transactionFrom` (main.go:135-199) once the account, the other account and the notes of the rule are known. -/
def rowTransaction (env : CsvEnv) (value : Str → Except Fault Str) (account dest description : Str) (notes : List Str) : Except Fault ITxn :=
  (rowHead value description notes).bind fun t =>
  (rowAmount env value dest).bind fun amount =>
  (rowQuantity env value).bind fun quantity =>
  .ok (rowPostings env account (findAccountForCommodity env amount.com dest) amount quantity t)

/-- The rule sets of the index. -/
def ruleSets (ri : Option RuleIndex) : List RuleSet := match ri with | some ri => ri.sets | none => []

/-- `transactionFrom` (main.go:114-200). `trim` is the function of ofx2coin (cmd/csv2coin/utils.go:8-21). -/
def transactionFrom (env : CsvEnv) (fs : SrcFields) (row : List Str) : Except Fault (Option ITxn) :=
  let value := nameValue env.rx fs row env.fuel
  (value (str "account")).bind fun id =>
  (value (str "description")).bind fun desc =>
  (accountRulesFor env.rules env.byOfx id).bind fun ars =>
  (ruleFor env.matcher (ruleSets env.rules) (trimWords desc) env.fuel ars.items).bind fun
    | none => (rowTransaction env value ars.account env.unbalanced (trimWords desc) []).bind fun t => .ok (some t)
    | some r => match r.account with
      | none => .ok none
      | some a => (rowTransaction env value ars.account a (trimWords desc) r.notes).bind fun t => .ok (some t)

/-- The loop over the header (main.go:92-99): the number of fields the reader expects next, and the records left. A record of another
length makes the reader expect that length; at the end of the file the command ends. -/
def skipHeader : Nat → Option Nat → List (List Str) → Except Fault (Option Nat × List (List Str))
  | 0, n, rows => .ok (n, rows)
  | _ + 1, _, [] => .error .exit
  | k + 1, _, row :: rows => skipHeader k (some row.length) rows

/-- The loop over the records (main.go:100-109); the reader wants all of them to have the same length. -/
def readRows (one : List Str → Except Fault (Option ITxn)) : Option Nat → List (List Str) → Except Fault (List ITxn)
  | _, [] => .ok []
  | n, row :: rows =>
    if n.getD row.length = row.length then
      (one row).bind fun t => (readRows one (some row.length) rows).bind fun ts => .ok (t.toList ++ ts)
    else .error .exit

/-- `Source` (rules.go:90-94). -/
structure Source where
  name : Str
  skip : Nat
  fields : SrcFields
  deriving DecidableEq, Repr

/-- `readTransactions` (main.go:90-111) of a file's records. -/
def readCsv (env : CsvEnv) (src : Source) (rows : List (List Str)) : Except Fault (List ITxn) :=
  (skipHeader src.skip none rows).bind fun r => readRows (transactionFrom env src.fields) r.1 r.2

/-- The loop over the files (main.go:72-79). -/
def readFiles (env : CsvEnv) (src : Source) : List (List (List Str)) → Except Fault (List ITxn)
  | [] => .ok []
  | f :: fs => (readCsv env src f).bind fun ts => (readFiles env src fs).bind fun us => .ok (ts ++ us)

/-- What the command writes (main.go:71-87): the transactions of all files in order of time. -/
def csvTransactions (env : CsvEnv) (src : Source) (files : List (List (List Str))) : Except Fault (List ITxn) :=
  (readFiles env src files).bind fun ts => .ok (stableSort ITxn.less ts)

/-- `labels` (main.go:212-221). -/
def csvLabels : List Str :=
  [str "account", str "description", str "date", str "amount", str "currency", str "symbol", str "quantity", str "note"]

/-- The loop of `parseFields` (main.go:228-232). -/
def parseIndexes : List Str → List Str → Except Fault SrcFields
  | label :: ls, s :: ss =>
    (checkNoError (parseInt64 s)).bind fun i => (parseIndexes ls ss).bind fun r => .ok ((label, ⟨some i, [], [], none⟩) :: r)
  | _, _ => .ok []

/-- `parseFields` (main.go:223-234), the `-fields` option. -/
def parseFields (list : Str) : Except Fault SrcFields :=
  if (splitOn ',' list).length = csvLabels.length then parseIndexes csvLabels (splitOn ',' list) else .error .exit

/-! ### csv.rules (cmd/csv2coin/rules.go) -/

/-- `sourceREX` (rules.go:96), anchored at both ends. -/
def sourceRe : Re :=
  .cat [.grp (str "source") (.plus .word), .opt (.cat [.plus .ws, .grp (str "skip") (.plus .digit)]), .star .ws, .eot]

/-- `derivedFieldRex` (rules.go:97). -/
def derivedFieldRe : Re :=
  .cat [.ch '"', .grp (str "code") (.star .any), .ch '"',
    .opt (.cat [.plus .ws, .grp (str "condField") (.plus .word), .plus .ws, .grp (str "condRex") (.plus .any)])]

/-- `directFieldRex` (rules.go:98). -/
def directFieldRe : Re :=
  .cat [.grp (str "rowIdx") (.plus .digit),
    .opt (.cat [.plus .ws, .ch '"', .grp (str "out") (.plus .any), .ch '"', .plus .ws, .grp (str "rex") (.plus .any)])]

/-- `fieldREX` (rules.go:99), anchored at both ends. -/
def fieldRe : Re :=
  .cat [.plus .ws, .grp (str "field") (.plus .word), .plus .ws, .alt directFieldRe derivedFieldRe, .eot]

/-- `rex.MustCompile(strings.TrimSpace(s))`: an expression that does not compile panics. -/
def mustCompile (compiles : Str → Bool) (s : Str) : Except Fault (Option Str) :=
  if compiles (trimSpace s) then .ok (some (trimSpace s)) else .error .panic

/-- A field line (rules.go:117-131), given its match. -/
def fieldLine (compiles : Str → Bool) (c : Caps) : Except Fault CField :=
  if c.get (str "code") ≠ [] then
    if c.get (str "condField") ≠ [] then
      (mustCompile compiles (c.get (str "condRex"))).bind fun re => .ok ⟨none, c.get (str "code"), c.get (str "condField"), re⟩
    else .ok ⟨none, c.get (str "code"), [], none⟩
  else
    (checkNoError (parseInt64 (c.get (str "rowIdx")))).bind fun i =>
    if c.get (str "rex") ≠ [] then
      (mustCompile compiles (c.get (str "rex"))).bind fun re => .ok ⟨some i, trimSpace (c.get (str "out")), [], re⟩
    else .ok ⟨some i, trimSpace (c.get (str "out")), [], none⟩

/-- The loop over the field lines (rules.go:111-137): the fields, and the lines from the first that is not a field line. -/
def fieldLoop (compiles : Str → Bool) : List Str → Except Fault (SrcFields × List Str)
  | [] => .ok ([], [])
  | line :: rest =>
    match fieldRe.matchAt line with
    | none => .ok ([], line :: rest)
    | some m => (fieldLine compiles m.1).bind fun f => (fieldLoop compiles rest).bind fun r => .ok ((m.1.get (str "field"), f) :: r.1, r.2)

/-- `ScanSource` (rules.go:101-139): the source and the lines left. The line after the header must exist. -/
def scanSource (compiles : Str → Bool) (line : Str) (rest : List Str) : Except Fault (Source × List Str) :=
  match sourceRe.matchAt line with
  | none => .error .exit
  | some m =>
    (checkNoError (parseInt64 (m.1.get (str "skip")))).bind fun skip =>
    if rest = [] then .error .exit
    else (fieldLoop compiles rest).bind fun r => .ok (⟨m.1.get (str "source"), skip.toNat, r.1⟩, r.2)

/-- `Rules` (rules.go:163-166); `sources` is the map by name, latest first. -/
structure CsvRules where
  sources : List Source
  index : Option RuleIndex
  deriving DecidableEq, Repr

/-- `rules.sources[name]`. -/
def CsvRules.source (r : CsvRules) (name : Str) : Option Source := r.sources.find? (fun s => decide (s.name = name))

/-- The loop of `ReadRules` (rules.go:181-192) and the rules after it (rules.go:193-196). At the end of the input `s.Bytes()` is empty,
which is not a source. The number bounds the lines. -/
def readSources (env : RuleEnv) : Nat → List Source → List Str → Except Fault CsvRules
  | 0, _, _ => .error .exit
  | _ + 1, _, [] => .error .exit
  | n + 1, srcs, line :: rest =>
    if line = str "---" then
      match rest with
      | [] => .ok ⟨srcs, none⟩
      | rest => (scanRules env rest.length ⟨[], []⟩ rest).bind fun ri => .ok ⟨srcs, some ri⟩
    else (scanSource env.compiles line rest).bind fun r => readSources env n (r.1 :: srcs) r.2

/-- `ReadRules` (rules.go:176-197). -/
def readCsvRules (env : RuleEnv) (text : Str) : Except Fault CsvRules :=
  readSources env ((scanLines text).length + 1) [] (scanLines text)

/-- A field line of `(*Source).Write` (rules.go:145-155); `%d` of the pointer `f.idx` prints an address, `addr`. -/
def writeField (addr : CField → Nat) (name : Str) (f : CField) : Str :=
  match f.re with
  | none => str "  " ++ name ++ str " " ++ (if f.out ≠ [] then f.out else natStr (addr f))
  | some re => str "  " ++ name ++ str " " ++ natStr (addr f) ++ str " " ++ f.out ++ str " " ++ re

/-- `(*Source).Write` (rules.go:141-157): lines. -/
def writeSource (addr : CField → Nat) (s : Source) : List Str :=
  s.name :: csvLabels.flatMap fun n => (s.fields.get n).map (writeField addr n)

/-- `(*Rules).Write` (rules.go:168-174); `order` lists the sources in the order of the map iteration, `index` the lines written for the
rule index. -/
def writeCsvRules (addr : CField → Nat) (order : List Source) (index : List Str) : List Str :=
  order.flatMap (writeSource addr) ++ str "---" :: index

end Verif
