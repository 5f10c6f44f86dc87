import Verif.Model.Parser
/-
Model of loading files: `Load`, `LoadFile`, `LoadPrices`, `LoadAll` (coin.go:61-135) and `(*Include).Files` (include.go:49-60).

The directory is `Disk`: what can be read, which names exist, and the library functions on paths (`filepath.Join/Dir`, `os.ExpandEnv`,
`filepath.Glob`), which are not modelled further. A file stays open until its load returns (`defer file.Close()`), so the number of
files being loaded at one time is bounded by the process' limit of open files; opening one more fails, and `check.NoError` ends the
process.
-/
namespace Verif

/-- What loading reads of the file system and the environment. -/
structure Disk where
  /-- contents of a file that can be opened -/
  read : Str → Option Str
  /-- `filepath.Join(filepath.Dir(file), path)` -/
  beside : Str → Str → Str
  /-- `os.ExpandEnv` -/
  expand : Str → Str
  /-- `filepath.Glob`; `none`: bad pattern -/
  glob : Str → Option (List Str)
  /-- `os.Stat` does not say "not exist" -/
  stat : Str → Bool

/-- The path before expansion (include.go:50-57); indexing an empty path panics, but the head's expression gives none. -/
def includePath (d : Disk) (fn path : Str) : Str :=
  match path with
  | '/' :: _ => '.' :: path
  | '$' :: _ => path
  | _ => d.beside fn path

/-- `(*Include).Files` (include.go:49-60). -/
def includeFiles (d : Disk) (fn path : Str) : Option (List Str) := d.glob (d.expand (includePath d fn path))

/-- Loading files one after the other; `fn` is the file containing the include (coin.go:122-126). -/
def loadFiles (load : LoadState → Str → Except Fault LoadState) (fn : Str) : LoadState → List Str → Except Fault LoadState
  | st, [] => .ok st
  | st, f :: fs => if f = fn then .error .exit else (load st f).bind fun st => loadFiles load fn st fs

/-- The body of the loop of `Load` (coin.go:104-133). -/
def loadItem (d : Disk) (load : LoadState → Str → Except Fault LoadState) (fn : Str) (st : LoadState) (i : ItemD) : Except Fault LoadState :=
  match i.1 with
  | .include_ path =>
    match includeFiles d fn path with
    | none => .error .exit
    | some fs => loadFiles load fn st fs
  | _ => storeItem st i

/-- `Load` (coin.go:96-135); `load` is the nested `LoadFile`. Every item consumes a line, so the number of lines bounds the iterations. -/
def loadReader (d : Disk) (today : Today) (load : LoadState → Str → Except Fault LoadState) (fn : Str) :
    Nat → LoadState → List Str → Except Fault LoadState
  | 0, st, _ => .ok st
  | n + 1, st, lines =>
    match next ⟨today, st.lookup, st.dflt⟩ lines with
    | .error .err => .error .exit
    | .error f => .error f
    | .ok (none, _) => .ok st
    | .ok (some i, rest) => (loadItem d load fn st i).bind fun st => loadReader d today load fn n st rest

/-- `LoadFile` (coin.go:89-94) when `limit` more files can be opened. -/
def loadFile (d : Disk) (today : Today) : Nat → LoadState → Str → Except Fault LoadState
  | 0, _, _ => .error .exit
  | limit + 1, st, fn =>
    match d.read fn with
    | none => .error .exit
    | some text => loadReader d today (loadFile d today limit) fn ((scanLines text).length + 1) st (scanLines text)

/-- The names of the files of the ledger (coin.go:33-36) and of its directory's patterns (coin.go:64, 77). -/
structure Names where
  commodities : Str
  prices : Str
  accounts : Str
  transactions : Str
  pricesGlob : Str
  coinGlob : Str

/-- `filepath.Glob` with the error ignored (coin.go:64, 77). -/
def globOr (d : Disk) (p : Str) : List Str := match d.glob p with | none => [] | some l => l

/-- The files read by `LoadPrices` (coin.go:61-71), in order. -/
def pricesFiles (d : Disk) (n : Names) : List Str := if d.stat n.prices then [n.prices] else globOr d n.pricesGlob

/-- The files of transactions read by `LoadAll` (coin.go:76-86), in order. -/
def transactionFiles (d : Disk) (n : Names) : List Str :=
  if d.stat n.transactions then [n.transactions]
  else (globOr d n.coinGlob).filter (fun f => decide (f ≠ n.commodities ∧ f ≠ n.accounts))

/-- Loading files one after the other, each with all file descriptors free again. -/
def loadEach (d : Disk) (today : Today) (limit : Nat) : LoadState → List Str → Except Fault LoadState
  | st, [] => .ok st
  | st, f :: fs => (loadFile d today limit st f).bind fun st => loadEach d today limit st fs

/-- `LoadPrices` (coin.go:61-71). -/
def loadPricesFile (d : Disk) (today : Today) (limit : Nat) (n : Names) (st : LoadState) : Except Fault LoadState :=
  (loadFile d today limit st n.commodities).bind fun st => loadEach d today limit st (pricesFiles d n)

/-- `LoadAll` (coin.go:73-87) up to `ResolveAll`. -/
def loadAll (d : Disk) (today : Today) (limit : Nat) (n : Names) (st : LoadState) : Except Fault LoadState :=
  (loadPricesFile d today limit n st).bind fun st =>
  (loadFile d today limit st n.accounts).bind fun st =>
  loadEach d today limit st (transactionFiles d n)

end Verif
