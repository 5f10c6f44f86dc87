import Verif.Model.Date
import Verif.Model.Amount
/-
Model of the parser: parser.go and the parse functions of transaction.go, account.go, commodity.go, price.go, include.go, test.go, and
the item loop of `Load` (coin.go:96-135).

A text is the list of its lines, as `bufio.ScanLines` delivers them (lines longer than 64 KiB, which end the scan with an error, are
not modelled). Line numbers and file names, which only appear in messages, are left out.
-/
namespace Verif

/-! ### Lines -/

/-- `bufio.dropCR`. -/
def dropCR (s : Str) : Str := if s.getLast? = some '\r' then s.dropLast else s

/-- `bufio.ScanLines`: the last line counts only if it is not empty. -/
def scanLines (s : Str) : List Str :=
  let l := splitOn '\n' s
  (if l.getLast? = some [] then l.dropLast else l).map dropCR

/-- `unicode.IsSpace`. -/
def isSpaceU (c : Char) : Bool :=
  decide (c ∈ ['\t', '\n', '\x0b', '\x0c', '\r', ' ', '\u0085', '\u00A0', '\u1680', '\u2028', '\u2029', '\u202f', '\u205f', '\u3000']) ||
    (decide (0x2000 ≤ c.toNat) && decide (c.toNat ≤ 0x200a))

/-- `len(bytes.TrimSpace(line)) == 0`. -/
def isBlank (s : Str) : Bool := s.all isSpaceU

/-- `strings.TrimLeft(s, " \t")`. -/
def trimLeft (s : Str) : Str := s.dropWhile (fun c => decide (c = ' ') || decide (c = '\t'))
/-- `strings.TrimRight(s, " \t")`. -/
def trimRight (s : Str) : Str := (s.reverse.dropWhile (fun c => decide (c = ' ') || decide (c = '\t'))).reverse

/-! ### Expressions -/

/-- `[\w/_\-]` (account.go:82). -/
def isNameChar (c : Char) : Bool := isWord c || decide (c = '/') || decide (c = '-')
/-- `accountNameREX` (account.go:82). -/
def nameRe : Re := .seq (.cls isAlpha) (.star (.cls isNameChar))
/-- `AccountREX` (account.go:83). -/
def accountRe : Re := .grp (str "account") (.seq nameRe (.star (.seq (.ch ':') nameRe)))
/-- `CommodityREX` (commodity.go:137) with the number of its occurrence. -/
def commodityRe (n : Str) : Re := .grp (str "commodity" ++ n) (.seq (.cls isAlpha) (.star .word))
/-- The `amount` group of `AmountREX` (amount.go:14). -/
def numberRe (n : Str) : Re :=
  .grp (str "amount" ++ n) (.cat [.opt (.ch '-'), .plus .digit, .opt (.grp (str "decimals" ++ n) (.seq (.ch '.') (.plus .digit)))])
/-- `AmountREX` (amount.go:14); `n` and `m` number the amount and commodity groups. -/
def amountRe (n m : Str) : Re := .cat [numberRe n, .plus .ws, commodityRe m]

/-- `; ?(?P<shortNote>.*)`. -/
def noteRe (n : Str) : Re := .cat [.ch ';', .opt (.ch ' '), .grp n (.star .any)]

/-- `(\s+\((?P<code>\w+)\))` (transaction.go:120). -/
def codeRe : Re := .cat [.plus .ws, .ch '(', .grp (str "code") (.plus .word), .ch ')']
/-- `(\s+(?P<description>\S[^;]*))` (transaction.go:120). -/
def descriptionRe : Re := .seq (.plus .ws) (.grp (str "description") (.seq .notWs (.star (.cls (fun c => decide (c ≠ ';'))))))
/-- `transactionREX` (transaction.go:120). -/
def transactionRe : Re := .cat [dateRe, .opt codeRe, .opt descriptionRe, .opt (noteRe (str "shortNote"))]

/-- `(\s+=\s+AMOUNT)` (transaction.go:122). -/
def balanceRe : Re := .cat [.plus .ws, .ch '=', .plus .ws, amountRe (str "2") (str "2")]
/-- First alternative of `postingREX` (transaction.go:122). -/
def postingLineRe : Re :=
  .cat [.plus .ws, accountRe, .opt (.cat [.plus .ws, amountRe (str "1") (str "1"), .opt balanceRe]),
    .opt (.seq (.star .ws) (noteRe (str "shortNote")))]
/-- Second alternative of `postingREX` (transaction.go:123). -/
def noteLineRe : Re := .seq (.plus .ws) (noteRe (str "note"))
/-- `postingREX` (transaction.go:121-124). -/
def postingRe : Re := .alt postingLineRe noteLineRe

/-- `priceREX` (price.go:41). -/
def priceRe : Re := .cat [.lit (str "P "), dateRe, .plus .ws, commodityRe (str "1"), .plus .ws, amountRe [] (str "2")]
/-- `accountHeadREX` (account.go:84). -/
def accountHeadRe : Re := .cat [.lit (str "account"), .plus .ws, accountRe]
/-- `accountBodyREX` (account.go:85-92). -/
def accountBodyRe : Re :=
  .alt (.cat [.plus .ws, .lit (str "note"), .plus .ws, .grp (str "note") (.seq .notWs (.plus .any))]) <|
  .alt (.cat [.plus .ws, .lit (str "commodity"), .plus .ws, commodityRe []]) <|
  .alt (.cat [.plus .ws, .lit (str "closed"), .plus .ws, dateRe]) <|
  .alt (.cat [.plus .ws, .lit (str "ofx_bankid"), .plus .ws, .grp (str "ofx_bankid") (.plus .digit)]) <|
  .alt (.cat [.plus .ws, .lit (str "ofx_acctid"), .plus .ws, .grp (str "ofx_acctid") (.plus .digit)])
    (.cat [.plus .ws, .lit (str "csv_acctid"), .plus .ws, .grp (str "csv_acctid") (.plus .word)])
/-- `commodityHeadREX` (commodity.go:138). -/
def commodityHeadRe : Re := .cat [.lit (str "commodity"), .plus .ws, commodityRe []]
/-- `commodityBodyREX` (commodity.go:139-145). -/
def commodityBodyRe : Re :=
  .alt (.cat [.plus .ws, .lit (str "note"), .plus .ws, .grp (str "note") (.plus .any)]) <|
  .alt (.cat [.plus .ws, .lit (str "format"), .plus .ws, .grp (str "format") (amountRe [] [])]) <|
  .alt (.cat [.plus .ws, .grp (str "nomarket") (.lit (str "nomarket")), .star .ws]) <|
  .alt (.cat [.plus .ws, .lit (str "symbol"), .plus .ws, .grp (str "symbol") (.plus (.cls (fun c => isWord c || decide (c = '.'))))])
    (.cat [.plus .ws, .grp (str "default") (.lit (str "default")), .star .ws])
/-- `includeHead` (include.go:24). -/
def includeRe : Re := .cat [.lit (str "include"), .plus .ws, .grp (str "1") (.plus .any)]
/-- `testHead` (test.go:17). -/
def testRe : Re := .cat [.lit (str "test"), .plus .ws, .grp (str "1") (.plus .any)]

/-! ### Items -/

/-- A parsed posting (posting.go:10-21): `accountName`, `Quantity`, `Balance` with `BalanceAsserted`, `Notes`. -/
structure PPost where
  account : Str
  quantity : Option Amount
  balance : Option Amount
  notes : List Str
  deriving DecidableEq, Repr

/-- A parsed transaction (transaction.go:18-30). -/
structure PTxn where
  posted : Int
  code : Str
  description : Str
  notes : List Str
  postings : List PPost
  deriving DecidableEq, Repr

/-- A parsed account (account.go:18-40); `closed` is `none` for the zero time. -/
structure PAcct where
  fullName : Str
  description : Str
  commodityId : Str
  closed : Option Int
  ofxBankId : Str
  ofxAcctId : Str
  csvAcctId : Str
  deriving DecidableEq, Repr

/-- A parsed commodity (commodity.go:22-38). -/
structure PCom where
  id : Str
  name : Str
  decimals : Nat
  noMarket : Bool
  symbol : Str
  deriving DecidableEq, Repr

/-- A parsed price (price.go:13-23). -/
structure PPrice where
  time : Int
  commodityId : Str
  currencyId : Str
  value : Amount
  deriving DecidableEq, Repr

/-- `Item` (parser.go:16-17). -/
inductive Item
  | include_ (path : Str)
  | account (a : PAcct)
  | commodity (c : PCom)
  | test (cmd : Str) (result : Str)
  | price (p : PPrice)
  | transaction (t : PTxn)
  deriving DecidableEq, Repr

/-- What parsing reads of the globals: today, `Commodities`, `DefaultCommodityId`. -/
structure PEnv where
  today : Today
  coms : Str → Option Com
  dflt : Str

/-- `MustFindCommodity` (coin.go:54-59). -/
def mustFindCommodity (env : PEnv) (id : Str) : Except Fault Com :=
  match env.coms id with
  | some c => .ok c
  | none => .error .panic

/-- A quantity or balance of a posting line (transaction.go:152-159 and 179-185): none when the group is empty. -/
def optAmount (env : PEnv) (amt com : Str) : Except Fault (Option Amount) :=
  if amt = [] then .ok none
  else (mustFindCommodity env com).bind fun c => (parseAmount amt c).bind fun a => .ok (some a)

/-- `TrimLeft(match["shortNote"])` as a list of notes (transaction.go:138-140, 174-176). -/
def shortNotes (s : Str) : List Str := if trimLeft s = [] then [] else [trimLeft s]

/-- Attaching pending notes to the last posting. -/
def attachLast : List PPost → List Str → List PPost
  | [], _ => []
  | [p], notes => [{ p with notes := p.notes ++ notes }]
  | p :: ps, notes => p :: attachLast ps notes

/-- Attaching pending notes when a posting follows (transaction.go:160-167): to the transaction when there is no posting yet. -/
def attach (tn : List Str) (ps : List PPost) (pending : List Str) : List Str × List PPost :=
  if ps = [] then (tn ++ pending, []) else (tn, attachLast ps pending)

/-- End of the loop (transaction.go:189-191): pending notes without a posting dereference nil. -/
def finishPostings (tn : List Str) (ps : List PPost) (pending : List Str) : Except Fault (List Str × List PPost) :=
  if pending = [] then .ok (tn, ps)
  else if ps = [] then .error .panic
  else .ok (tn, attachLast ps pending)

/-- The loop of `parseTransaction` (transaction.go:143-188): the transaction's notes, the postings so far, the pending notes and
the remaining lines. Returns notes, postings and the lines not consumed. -/
def postingLoop (env : PEnv) : List Str → List PPost → List Str → List Str → Except Fault ((List Str × List PPost) × List Str)
  | tn, ps, pending, [] => (finishPostings tn ps pending).bind fun r => .ok (r, [])
  | tn, ps, pending, line :: rest =>
    match postingRe.matches line with
    | none => (finishPostings tn ps pending).bind fun r => .ok (r, line :: rest)
    | some c =>
      if c.get (str "note") ≠ [] then postingLoop env tn ps (pending ++ [c.get (str "note")]) rest
      else
        (optAmount env (c.get (str "amount1")) (c.get (str "commodity1"))).bind fun quantity =>
        (optAmount env (c.get (str "amount2")) (c.get (str "commodity2"))).bind fun balance =>
        postingLoop env (attach tn ps pending).1
          ((attach tn ps pending).2 ++ [⟨c.get (str "account"), quantity, balance, shortNotes (c.get (str "shortNote"))⟩]) [] rest

/-- `parseTransaction` (transaction.go:126-195). -/
def parseTransaction (env : PEnv) (line : Str) (rest : List Str) : Except Fault (PTxn × List Str) :=
  match transactionRe.matches line with
  | none => .error .err
  | some c =>
    (mustParseDate env.today c).bind fun posted =>
    (postingLoop env (shortNotes (c.get (str "shortNote"))) [] [] rest).bind fun r =>
    .ok (⟨posted, c.get (str "code"), trimRight (c.get (str "description")), r.1.1, r.1.2⟩, r.2)

/-- `len(bytes.TrimSpace(line)) == 0 || !unicode.IsSpace(rune(line[0]))` (account.go:123, commodity.go:153). -/
def endsBody (line : Str) : Bool :=
  isBlank line || (match line with | c :: _ => !(isSpaceU c && decide (c.toNat < 128)) | [] => true)

/-- One line of an account's body (account.go:126-141). -/
def accountLine (env : PEnv) (a : PAcct) (c : Caps) : Except Fault PAcct :=
  if c.get (str "note") ≠ [] then .ok { a with description := c.get (str "note") }
  else if c.get (str "commodity") ≠ [] then .ok { a with commodityId := c.get (str "commodity") }
  else if c.get (str "date") ≠ [] then (mustParseDate env.today c).bind fun t => .ok { a with closed := some t }
  else if c.get (str "ofx_bankid") ≠ [] then .ok { a with ofxBankId := c.get (str "ofx_bankid") }
  else if c.get (str "ofx_acctid") ≠ [] then .ok { a with ofxAcctId := c.get (str "ofx_acctid") }
  else if c.get (str "csv_acctid") ≠ [] then .ok { a with csvAcctId := c.get (str "csv_acctid") }
  else .ok a

/-- The loop of `parseAccount` (account.go:121-143). -/
def accountBody (env : PEnv) : PAcct → List Str → Except Fault (PAcct × List Str)
  | a, [] => .ok (a, [])
  | a, line :: rest =>
    if endsBody line then .ok (a, line :: rest)
    else match accountBodyRe.matches line with
      | none => .error .err
      | some c => (accountLine env a c).bind fun a => accountBody env a rest

/-- `match["account"]` of a possibly nil match. -/
def getOr (m : Option Caps) (n : Str) : Str := match m with | none => [] | some c => c.get n

/-- `parseAccount` (account.go:116-145). -/
def parseAccount (env : PEnv) (line : Str) (rest : List Str) : Except Fault (PAcct × List Str) :=
  accountBody env ⟨getOr (accountHeadRe.matches line) (str "account"), [], env.dflt, none, [], [], []⟩ rest

/-- One line of a commodity's body (commodity.go:160-178); the second component tells whether the commodity becomes the default. -/
def commodityLine (x : PCom) (c : Caps) : Except Fault (PCom × Bool) :=
  if c.get (str "note") ≠ [] then .ok ({ x with name := c.get (str "note") }, false)
  else if c.get (str "amount") ≠ [] then .ok ({ x with decimals := (c.get (str "decimals")).length - 1 }, false)
  else if c.get (str "nomarket") ≠ [] then .ok ({ x with noMarket := true }, false)
  else if c.get (str "symbol") ≠ [] then .ok ({ x with symbol := c.get (str "symbol") }, false)
  else if c.get (str "default") ≠ [] then .ok (x, true)
  else .error .err

/-- The loop of `parseCommodity` (commodity.go:151-179); `d`: became the default. -/
def commodityBody : PCom → Bool → List Str → Except Fault ((PCom × Bool) × List Str)
  | x, d, [] => .ok ((x, d), [])
  | x, d, line :: rest =>
    if endsBody line then .ok ((x, d), line :: rest)
    else match commodityBodyRe.matches line with
      | none => .error .err
      | some c => (commodityLine x c).bind fun r => commodityBody r.1 (d || r.2) rest

/-- `parseCommodity` (commodity.go:147-181). -/
def parseCommodity (line : Str) (rest : List Str) : Except Fault ((PCom × Bool) × List Str) :=
  commodityBody ⟨getOr (commodityHeadRe.matches line) (str "commodity"), [], 2, false, []⟩ false rest

/-- `parsePrice` (price.go:43-69). -/
def parsePrice (env : PEnv) (line : Str) (rest : List Str) : Except Fault (PPrice × List Str) :=
  match priceRe.matches line with
  | none => .error .err
  | some c =>
    (mustParseDate env.today c).bind fun t =>
    (mustFindCommodity env (c.get (str "commodity2"))).bind fun cur =>
    (parseAmount (c.get (str "amount")) cur).bind fun v =>
    .ok (⟨t, c.get (str "commodity1"), c.get (str "commodity2"), v⟩, rest)

/-- `parseInclude` (include.go:26-31): indexing a nil match panics. -/
def parseInclude (line : Str) (rest : List Str) : Except Fault (Str × List Str) :=
  match includeRe.matches line with
  | none => .error .panic
  | some c => .ok (c.get (str "1"), rest)

/-- `bytes.TrimSpace`. -/
def trimSpace (s : Str) : Str := ((s.dropWhile isSpaceU).reverse.dropWhile isSpaceU).reverse

/-- The loop of `parseTest` (test.go:22-31). Without an `end test` line the result stays nil. -/
def testLoop : Str → List Str → Str × List Str
  | _, [] => ([], [])
  | acc, line :: rest => if trimSpace line = str "end test" then (acc, rest) else testLoop (acc ++ line ++ ['\n']) rest

/-- `parseTest` (test.go:19-33). -/
def parseTest (line : Str) (rest : List Str) : Except Fault ((Str × Str) × List Str) :=
  match testRe.matches line with
  | none => .error .panic
  | some c => .ok ((c.get (str "1"), (testLoop [] rest).1), (testLoop [] rest).2)

/-- `bytes.HasPrefix`. -/
def startsWith (p s : Str) : Bool := decide (s.take p.length = p)

/-- `bytes.ContainsAny(line[:1], ";#%|*")` (parser.go:41). -/
def isComment : Str → Bool
  | c :: _ => decide (c ∈ [';', '#', '%', '|', '*'])
  | [] => false

/-- A line starting with a digit. -/
def startsDigit : Str → Bool
  | c :: _ => isDigit c
  | [] => false

/-- An item, and whether it is a commodity that became the default. -/
abbrev ItemD := Item × Bool

/-- The dispatch of `(*Parser).Next` (parser.go:44-58) on a line that is neither blank nor a comment. -/
def parseItem (env : PEnv) (line : Str) (rest : List Str) : Except Fault (ItemD × List Str) :=
  if startsWith (str "include") line then (parseInclude line rest).bind fun r => .ok ((.include_ r.1, false), r.2)
  else if startsWith (str "account") line then (parseAccount env line rest).bind fun r => .ok ((.account r.1, false), r.2)
  else if startsWith (str "commodity ") line then (parseCommodity line rest).bind fun r => .ok ((.commodity r.1.1, r.1.2), r.2)
  else if startsWith (str "test ") line then (parseTest line rest).bind fun r => .ok ((.test r.1.1 r.1.2, false), r.2)
  else if startsWith (str "P ") line then (parsePrice env line rest).bind fun r => .ok ((.price r.1, false), r.2)
  else if startsDigit line then (parseTransaction env line rest).bind fun r => .ok ((.transaction r.1, false), r.2)
  else .error .err

/-- `(*Parser).Next` (parser.go:33-59): `none` at the end of the text. -/
def next (env : PEnv) : List Str → Except Fault (Option ItemD × List Str)
  | [] => .ok (none, [])
  | line :: rest =>
    if isBlank line then next env rest
    else if isComment line then next env rest
    else (parseItem env line rest).bind fun r => .ok (some r.1, r.2)

/-! ### Loading a text without includes -/

/-- The globals filled by `Load` (coin.go:96-135), in file order. `Commodities` is the map read by parsing; a commodity item gets the
next free pointer. -/
structure LoadState where
  coms : List Com
  dflt : Str
  items : List Item

/-- `Commodities[id]`: the latest of that id. -/
def LoadState.lookup (st : LoadState) (id : Str) : Option Com := st.coms.find? (fun c => decide (c.id = id))

/-- The body of the loop of `Load` (coin.go:104-133), except includes, which are left to the caller: storing an item. -/
def storeItem (st : LoadState) (i : ItemD) : Except Fault LoadState :=
  match i.1 with
  | .commodity c => .ok ⟨⟨st.coms.length, c.id, c.decimals⟩ :: st.coms, if i.2 then c.id else st.dflt, st.items ++ [i.1]⟩
  | .account a => if a.fullName = [] then .error .panic else .ok { st with items := st.items ++ [i.1] }
  | _ => .ok { st with items := st.items ++ [i.1] }

/-- `Load` (coin.go:96-135) of one text; an include item is only recorded. Every item consumes a line, so the number of lines bounds
the iterations. A parse error ends the process (`check.NoError`). -/
def loadLines (today : Today) : Nat → LoadState → List Str → Except Fault LoadState
  | 0, st, _ => .ok st
  | n + 1, st, lines =>
    match next ⟨today, st.lookup, st.dflt⟩ lines with
    | .error .err => .error .exit
    | .error f => .error f
    | .ok (none, _) => .ok st
    | .ok (some i, rest) => (storeItem st i).bind fun st => loadLines today n st rest

/-- Loading a text. -/
def loadText (today : Today) (st : LoadState) (text : Str) : Except Fault LoadState :=
  loadLines today ((scanLines text).length + 1) st (scanLines text)

end Verif
