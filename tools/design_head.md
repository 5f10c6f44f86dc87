# Formal model of mkobetic/coin in Lean 4

`/verif/lean` is a Lake project. Layout:

* `Verif/Go/*`     – the parts of Go's standard library the code relies on (big.Int division,
  `big.Rat.FloatString`, `strconv.ParseInt`, `strings.*`, `sort.Search/Find/Stable`, `time` calendar,
  leftmost-first regular expressions). These are *trusted descriptions* of Go, written from its documentation.
* `Verif/Model/*`  – the model of the repository, function by function; each definition cites file:lines.
* `Verif/Lemmas/*` – helper lemmas.
* `Verif/Props/*`  – property theorems `Cnn_...` with small independent specifications and non-vacuity examples.

A property that the code does not satisfy is handled like this: the full statement is given as a `def Cnn_…Statement : Prop`,
its negation is proved from a concrete reachable witness (`Cnn_…_violated`), and the strongest true variant that was found is
proved as `Cnn_…_partial`. Such a property has the status `partial` in `MANIFEST.json`, with a note saying what is false.

## Conventions of the model

* Go strings are `List Char`; where the code uses byte length, `blen` (UTF-8 length) is used.
* `*big.Int` is `Int`; `Div` is Euclidean division (`Int./`), `Quo` is truncated (`Int.tdiv`).
* A `*Commodity` is a value `Com` with an allocation number, so pointer equality is structural equality.
* Accounts are identified by their full name (in gc2coin by their GUID). Postings are references into a heap where the code
  mutates them (`Model/Ledger`), and values in the parser, the writer and the importers.
* A panic / `check` exit / nil dereference / endless loop is an explicit outcome (`Except Fault`), never a default value.
* Go map iteration order is an explicit list; theorems quantify over all such lists (permutations).
* `sort.Slice` (unstable) is "any sorted permutation"; `sort.Stable`/`SliceStable` is a stable sort.
* `time.Time` values in the ledger are always 12:00 UTC (`date.go` builds them so) and are modelled by their day number
  (day 0 is 0001/01/01); in the importers and gc2coin they are instants with a zone offset, in the generator UTC seconds.
* Regular expressions of the code are transcribed into an abstract syntax with a leftmost-first matcher; expressions given by
  the user on the command line are parameters (`compile`), except the account patterns of C82.
* Files and directories are functions from names to contents; the in-place rewriting of C51 is a sequence of file system
  operations with a crash possible after each.
* JavaScript numbers are exact integers rounded to 53 bits after each operation (`fl`, `dbl`); times on the page are local
  seconds with a constant zone offset; `Array.sort` is a stable sort; a thrown error is an explicit outcome.

## Trusted base

* Lean's kernel (`lake build`; the theorems are checked by it, no compiled evaluation).
* Axioms: at most `propext`, `Classical.choice` and `Quot.sound` for every theorem; none of our own. (`decide +kernel` is
  evaluated by the kernel and adds none.)
* The reading of the code: that the definitions in `Verif/Model` say what the cited lines say, and that `Verif/Go` and the
  JavaScript pieces of `Model/WebAmount`, `Model/Json`, `Model/Page`, `Model/Views`, `Model/ViewGroup` say what the libraries do
  (Go's and JavaScript's standard libraries, d3-time intervals, d3-array bisectors). Nothing was executed against the real program.

## What is modelled, by source file

| source | model |
|--------|-------|
| `amount.go`, `pow10.go` | `Model/Amount`  |
| `commodity.go`, `price.go` | `Model/Prices`, `Model/Load`, `Model/Writer`, `Model/Json` |
| `account.go` | `Model/Accounts`, `Model/Postings`, `Model/Pattern`, `Model/Parser`, `Model/Writer`, `Model/Json` |
| `posting.go`, `transaction.go`, `tags.go` | `Model/Ledger`, `Model/Parser`, `Model/Writer`, `Model/LedgerOut` (with `ledger`), `Model/Tags`, `Model/Json` |
| `coin.go`, `include.go`, `parser.go` | `Model/Ledger` (checks), `Model/Accounts`, `Model/Load`, `Model/Parser`, `Model/Scanner` (lines of 64 KiB and more) |
| `date.go` | `Model/Date`, `Verif/Go/Calendar` |
| `rules.go` | `Model/Rules`, `Model/RulesDump` |
| `test.go`, `cmd/coin/test.go` | `Model/TestCmd`, with the commands that tests run `Model/TestMain`, sequences of tests of `modify` and `format` `Model/TestWrites` |
| `cmd/coin/{accounts,commodities}.go` | `Model/ListCmd` |
| `cmd/coin/{balance,register,postings,totals,stats,tags,modify,format,utils}.go` | `Model/Balance`, `Model/Register`, `Model/Totals`, `Model/Select`, `Model/Range`, `Model/Periods`, `Model/Stats`, `Model/TagsCmd`, `Model/Format`, `Model/FormatOwn`, `Model/TextOut` |
| `cmd/coin/main.go` and Go's `flag` | `Model/CommandLine` (the reports from arguments to text) |
| `coin.go` `LoadAll`, end to end | `Model/Program` (files to loaded ledger) |
| `cmd/coin/{accounts,tags,stats,commodities}.go`, end to end | `Model/Reports` (files and arguments to output; locations of transactions and prices are a parameter) |
| `cmd/coin/commodities.go` with `-q`, `NewAmountFloat` | `Model/Quotes` (the quote service is a parameter) |
| `cmd/coin/format.go`, `format FLAGS FILES` end to end | `Model/FormatMain` (files of transactions alone; crashes between remove and rename are in `Model/Format`, files that declare accounts in `Model/FormatOwn`) |
| `cmd/coin/modify.go`, `modify FLAGS FILES` end to end | `Model/ModifyMain` (files of transactions alone; with the count it reports) |
| `cmd/ofx2coin` | `Model/Import`, `Model/OfxIds`, `Model/Bmo` |
| `cmd/csv2coin` | `Model/Csv` |
| `gnucash`, `cmd/gc2coin` | `Model/Gnucash` (from the decoded XML on) |
| `cmd/gen2coin` | `Model/Generate`, `Model/GenWrite` (random numbers are parameters; `-j` is left out) |
| `cmd/coin2html/main.go` (the data written) | `Model/Json`, `Model/Page` |
| `cmd/coin2html/js/src/commodity.ts` | `Model/WebAmount`, `Model/WebConvert` |
| `cmd/coin2html/js/src/{account,utils,views*,ui}.ts` | `Model/Page` (loading), `Model/Views`, `Model/ViewGroup`, `Model/Chart` (balances chart) |

## Not modelled

Usage texts; the syntax of integer flags; colours and terminal width; the fixed HTML head and the chart drawing, scales, axes and treemap layout of the page (which boxes the balances chart has and their values are modelled);
the OFX, CSV and XML decoders (the importers start from decoded records); the quote service itself (its answers are a parameter); real
file system errors (write errors are ignored by the code); `time.Now` (a parameter);
daylight saving time in the browser; non-ASCII upper/lower case.

