import Verif.Go.Basic
/-
JSON as coin2html writes it and the page reads it: Go's `encoding/json` (Encoder with SetIndent("", "\t"),
cmd/coin2html/main.go:23-24, 29, 35, 41, 47) and JavaScript's `JSON.parse`
(cmd/coin2html/js/src/commodity.ts:316, 330, account.ts:213, 233). Library behaviour, not code of the repository.
Strings are sequences of characters (invalid UTF-8 is not modelled); numbers are the natural numbers written for `decimals`.
-/
namespace Verif

/-- A JSON value; objects as lists of fields in the order written. -/
inductive JVal
  | null
  | bool (b : Bool)
  | num (n : Nat)
  | str (s : Str)
  | arr (l : List JVal)
  | obj (l : List (Str × JVal))
  deriving Repr

/-- Lower case hexadecimal digit. -/
def hexChar (d : Nat) : Char := if d < 10 then Char.ofNat (48 + d) else Char.ofNat (87 + d)

/-- `\uXXXX`. -/
def uEscape (n : Nat) : Str := ['\\', 'u', hexChar (n / 4096 % 16), hexChar (n / 256 % 16), hexChar (n / 16 % 16), hexChar (n % 16)]

/-- One character of `appendString` with escapeHTML (encoding/json, Go 1.24). -/
def jsonChar (c : Char) : Str :=
  if c = '"' then ['\\', '"']
  else if c = '\\' then ['\\', '\\']
  else if c = '\n' then ['\\', 'n']
  else if c = '\r' then ['\\', 'r']
  else if c = '\t' then ['\\', 't']
  else if c.toNat = 8 then ['\\', 'b']
  else if c.toNat = 12 then ['\\', 'f']
  else if c.toNat < 32 ∨ c = '<' ∨ c = '>' ∨ c = '&' ∨ c.toNat = 0x2028 ∨ c.toNat = 0x2029 then uEscape c.toNat
  else [c]

/-- A string between quotes. -/
def jsonStr (s : Str) : Str := '"' :: (s.flatMap jsonChar ++ ['"'])

/-- Newline and indentation. -/
def jsonNl (d : Nat) : Str := '\n' :: rep d '\t'

mutual
/-- An indented value at nesting depth `d`. -/
def jsonVal (d : Nat) : JVal → Str
  | .null => ['n', 'u', 'l', 'l']
  | .bool true => ['t', 'r', 'u', 'e']
  | .bool false => ['f', 'a', 'l', 's', 'e']
  | .num n => natStr n
  | .str s => jsonStr s
  | .arr [] => ['[', ']']
  | .arr (v :: l) => '[' :: (jsonNl (d + 1) ++ jsonVal (d + 1) v ++ jsonElems d l)
  | .obj [] => ['{', '}']
  | .obj ((k, v) :: l) => '{' :: (jsonNl (d + 1) ++ jsonStr k ++ [':', ' '] ++ jsonVal (d + 1) v ++ jsonFields d l)
/-- The rest of an array. -/
def jsonElems (d : Nat) : List JVal → Str
  | [] => jsonNl d ++ [']']
  | v :: l => ',' :: (jsonNl (d + 1) ++ jsonVal (d + 1) v ++ jsonElems d l)
/-- The rest of an object. -/
def jsonFields (d : Nat) : List (Str × JVal) → Str
  | [] => jsonNl d ++ ['}']
  | (k, v) :: l => ',' :: (jsonNl (d + 1) ++ jsonStr k ++ [':', ' '] ++ jsonVal (d + 1) v ++ jsonFields d l)
end

/-- `encoder.Encode(v)`. -/
def jsonEncode (v : JVal) : Str := jsonVal 0 v ++ ['\n']

/-! ### `JSON.parse` -/

/-- JSON white space. -/
def isJsonWs (c : Char) : Bool := decide (c = ' ') || decide (c = '\t') || decide (c = '\n') || decide (c = '\r')

/-- Skipping white space. -/
def jsWs (s : Str) : Str := s.dropWhile isJsonWs

/-- Value of a hexadecimal digit. -/
def hexVal (c : Char) : Option Nat :=
  let n := c.toNat
  if 48 ≤ n ∧ n ≤ 57 then some (n - 48) else if 97 ≤ n ∧ n ≤ 102 then some (n - 87) else if 65 ≤ n ∧ n ≤ 70 then some (n - 55) else none

/-- The characters of a string up to the closing quote. `\u` escapes that are halves of surrogate pairs are not read as
the original would (Go never writes them). -/
def jsChars : Str → Option (Str × Str)
  | [] => none
  | '"' :: t => some ([], t)
  | '\\' :: 'u' :: a :: b :: c :: d :: t =>
    match hexVal a, hexVal b, hexVal c, hexVal d with
    | some a, some b, some c, some d => (jsChars t).map fun r => (Char.ofNat (a * 4096 + b * 256 + c * 16 + d) :: r.1, r.2)
    | _, _, _, _ => none
  | '\\' :: e :: t =>
    let c := if e = 'n' then some '\n' else if e = 'r' then some '\r' else if e = 't' then some '\t' else if e = 'b' then some (Char.ofNat 8)
      else if e = 'f' then some (Char.ofNat 12) else if e = '"' ∨ e = '\\' ∨ e = '/' then some e else none
    match c with
    | some c => (jsChars t).map fun r => (c :: r.1, r.2)
    | none => none
  | c :: t => if c.toNat < 32 then none else (jsChars t).map fun r => (c :: r.1, r.2)

/-- A number: only natural numbers are modelled, other numbers are refused. -/
def jsNum (s : Str) : Option (Nat × Str) :=
  let ds := s.takeWhile isDigit
  if ds = [] then none else some (strNat ds, s.dropWhile isDigit)

mutual
/-- A value; the first argument bounds the nesting and the number of elements. -/
def jsVal : Nat → Str → Option (JVal × Str)
  | 0, _ => none
  | n + 1, s =>
    match jsWs s with
    | '"' :: t => (jsChars t).map fun r => (.str r.1, r.2)
    | '[' :: t =>
      match jsWs t with
      | ']' :: t => some (.arr [], t)
      | t => (jsVal n t).bind fun r => (jsElems n r.2).map fun q => (.arr (r.1 :: q.1), q.2)
    | '{' :: t =>
      match jsWs t with
      | '}' :: t => some (.obj [], t)
      | t => (jsField n t).bind fun r => (jsFields n r.2).map fun q => (.obj (r.1 :: q.1), q.2)
    | 'n' :: 'u' :: 'l' :: 'l' :: t => some (.null, t)
    | 't' :: 'r' :: 'u' :: 'e' :: t => some (.bool true, t)
    | 'f' :: 'a' :: 'l' :: 's' :: 'e' :: t => some (.bool false, t)
    | t => (jsNum t).map fun r => (.num r.1, r.2)
/-- The rest of an array. -/
def jsElems : Nat → Str → Option (List JVal × Str)
  | 0, _ => none
  | n + 1, s =>
    match jsWs s with
    | ']' :: t => some ([], t)
    | ',' :: t => (jsVal n t).bind fun r => (jsElems n r.2).map fun q => (r.1 :: q.1, q.2)
    | _ => none
/-- A field of an object. -/
def jsField : Nat → Str → Option ((Str × JVal) × Str)
  | 0, _ => none
  | n + 1, s =>
    match jsWs s with
    | '"' :: t =>
      (jsChars t).bind fun k =>
      match jsWs k.2 with
      | ':' :: t => (jsVal n t).map fun r => ((k.1, r.1), r.2)
      | _ => none
    | _ => none
/-- The rest of an object. -/
def jsFields : Nat → Str → Option (List (Str × JVal) × Str)
  | 0, _ => none
  | n + 1, s =>
    match jsWs s with
    | '}' :: t => some ([], t)
    | ',' :: t => (jsField n t).bind fun r => (jsFields n r.2).map fun q => (r.1 :: q.1, q.2)
    | _ => none
end

/-- `JSON.parse(text)`: white space may follow the value, nothing else. -/
def jsonParse (s : Str) : Option JVal :=
  match jsVal (3 * s.length + 3) s with
  | some (v, r) => if jsWs r = [] then some v else none
  | none => none

/-- `value.field` of a parsed object (Go never writes a key twice). -/
def JVal.get (v : JVal) (k : Str) : Option JVal :=
  match v with
  | .obj l => (l.find? (fun e => decide (e.1 = k))).map (·.2)
  | _ => none

end Verif
