# Formal model of mkobetic/coin in Lean 4

`/verif/lean` is a Lake project. Layout:

* `Verif/Go/*`     – the parts of Go's standard library the code relies on (big.Int division,
  `big.Rat.FloatString`, `strconv.ParseInt`, `strings.*`, `sort.Search/Find/Stable`, `time` calendar,
  leftmost-first regular expressions). These are *trusted descriptions* of Go, written from its documentation.
* `Verif/Model/*`  – the model of the repository, function by function; each definition cites file:lines.
* `Verif/Lemmas/*` – helper lemmas.
* `Verif/Props/*`  – property theorems `Cnn_...` with small independent specifications and non-vacuity examples.

A property that the code does not satisfy is handled like this: the full statement is given as a `def Cnn_…Statement : Prop`,
its negation is proved from a concrete reachable witness (`Cnn_…_violated`), and the strongest true variant that was found is
proved as `Cnn_…_partial`. Such a property has the status `partial` in `MANIFEST.json`, with a note saying what is false.

## Conventions of the model

* Go strings are `List Char`; where the code uses byte length, `blen` (UTF-8 length) is used.
* `*big.Int` is `Int`; `Div` is Euclidean division (`Int./`), `Quo` is truncated (`Int.tdiv`).
* A `*Commodity` is a value `Com` with an allocation number, so pointer equality is structural equality.
* Accounts are identified by their full name (in gc2coin by their GUID). Postings are references into a heap where the code
  mutates them (`Model/Ledger`), and values in the parser, the writer and the importers.
* A panic / `check` exit / nil dereference / endless loop is an explicit outcome (`Except Fault`), never a default value.
* Go map iteration order is an explicit list; theorems quantify over all such lists (permutations).
* `sort.Slice` (unstable) is "any sorted permutation"; `sort.Stable`/`SliceStable` is a stable sort.
* `time.Time` values in the ledger are always 12:00 UTC (`date.go` builds them so) and are modelled by their day number
  (day 0 is 0001/01/01); in the importers and gc2coin they are instants with a zone offset, in the generator UTC seconds.
* Regular expressions of the code are transcribed into an abstract syntax with a leftmost-first matcher; expressions given by
  the user on the command line are parameters (`compile`), except the account patterns of C82.
* Files and directories are functions from names to contents; the in-place rewriting of C51 is a sequence of file system
  operations with a crash possible after each.
* JavaScript numbers are exact integers rounded to 53 bits after each operation (`fl`, `dbl`); times on the page are local
  seconds with a constant zone offset; `Array.sort` is a stable sort; a thrown error is an explicit outcome.

## Trusted base

* Lean's kernel (`lake build`; the theorems are checked by it, no compiled evaluation).
* Axioms: at most `propext`, `Classical.choice` and `Quot.sound` for every theorem; none of our own. (`decide +kernel` is
  evaluated by the kernel and adds none.)
* The reading of the code: that the definitions in `Verif/Model` say what the cited lines say, and that `Verif/Go` and the
  JavaScript pieces of `Model/WebAmount`, `Model/Json`, `Model/Page`, `Model/Views`, `Model/ViewGroup` say what the libraries do
  (Go's and JavaScript's standard libraries, d3-time intervals, d3-array bisectors). Nothing was executed against the real program.

## What is modelled, by source file

| source | model |
|--------|-------|
| `amount.go`, `pow10.go` | `Model/Amount`  |
| `commodity.go`, `price.go` | `Model/Prices`, `Model/Load`, `Model/Writer`, `Model/Json` |
| `account.go` | `Model/Accounts`, `Model/Postings`, `Model/Pattern`, `Model/Parser`, `Model/Writer`, `Model/Json` |
| `posting.go`, `transaction.go`, `tags.go` | `Model/Ledger`, `Model/Parser`, `Model/Writer`, `Model/LedgerOut` (with `ledger`), `Model/Tags`, `Model/Json` |
| `coin.go`, `include.go`, `parser.go` | `Model/Ledger` (checks), `Model/Accounts`, `Model/Load`, `Model/Parser`, `Model/Scanner` (lines of 64 KiB and more) |
| `date.go` | `Model/Date`, `Verif/Go/Calendar` |
| `rules.go` | `Model/Rules`, `Model/RulesDump` |
| `test.go`, `cmd/coin/test.go` | `Model/TestCmd`, with the commands that tests run `Model/TestMain`, sequences of tests of `modify` and `format` `Model/TestWrites` |
| `cmd/coin/{accounts,commodities}.go` | `Model/ListCmd` |
| `cmd/coin/{balance,register,postings,totals,stats,tags,modify,format,utils}.go` | `Model/Balance`, `Model/Register`, `Model/Totals`, `Model/Select`, `Model/Range`, `Model/Periods`, `Model/Stats`, `Model/TagsCmd`, `Model/Format`, `Model/FormatOwn`, `Model/TextOut` |
| `cmd/coin/main.go` and Go's `flag` | `Model/CommandLine` (the reports from arguments to text) |
| `coin.go` `LoadAll`, end to end | `Model/Program` (files to loaded ledger) |
| `cmd/coin/{accounts,tags,stats,commodities}.go`, end to end | `Model/Reports` (files and arguments to output; locations of transactions and prices are a parameter) |
| `cmd/coin/commodities.go` with `-q`, `NewAmountFloat` | `Model/Quotes` (the quote service is a parameter) |
| `cmd/coin/format.go`, `format FLAGS FILES` end to end | `Model/FormatMain` (files of transactions alone; crashes between remove and rename are in `Model/Format`, files that declare accounts in `Model/FormatOwn`) |
| `cmd/coin/modify.go`, `modify FLAGS FILES` end to end | `Model/ModifyMain` (files of transactions alone; with the count it reports) |
| `cmd/ofx2coin` | `Model/Import`, `Model/OfxIds`, `Model/Bmo` |
| `cmd/csv2coin` | `Model/Csv` |
| `gnucash`, `cmd/gc2coin` | `Model/Gnucash` (from the decoded XML on) |
| `cmd/gen2coin` | `Model/Generate`, `Model/GenWrite` (random numbers are parameters; `-j` is left out) |
| `cmd/coin2html/main.go` (the data written) | `Model/Json`, `Model/Page` |
| `cmd/coin2html/js/src/commodity.ts` | `Model/WebAmount`, `Model/WebConvert` |
| `cmd/coin2html/js/src/{account,utils,views*,ui}.ts` | `Model/Page` (loading), `Model/Views`, `Model/ViewGroup`, `Model/Chart` (balances chart) |

## Not modelled

Usage texts; the syntax of integer flags; colours and terminal width; the fixed HTML head and the chart drawing, scales, axes and treemap layout of the page (which boxes the balances chart has and their values are modelled);
the OFX, CSV and XML decoders (the importers start from decoded records); the quote service itself (its answers are a parameter); real
file system errors (write errors are ignored by the code); `time.Now` (a parameter);
daylight saving time in the browser; non-ASCII upper/lower case.

## Per property

What is modelled is the code named under "code"; theorems are in the modules under "proofs".

### C01–C11: arithmetic on `Int` and induction over digit strings

| id | property | code | proofs | status |
|----|----------|------|--------|--------|
| C01 | Printed amounts read back unchanged | `amount.go` | `Props/Amount` | proved |
| C02 | Exact parsing of well formed numbers | `amount.go` | `Props/Amount` | proved |
| C03 | Excess fraction digits are dropped toward zero | `amount.go` | `Props/Amount` | partial: False for negative literals: big.Int.Div rounds toward minus infinity. Proved for non-negative literals, plus the exact behaviour for all signs. |
| C04 | Adding amounts of one commodity is exact | `amount.go` | `Props/Amount` | proved |
| C05 | Adding an amount of another commodity | `amount.go`, `commodity.go` | `Props/Amount` | partial: One-unit bound is false when the source commodity has fewer decimals than the total; bound by the coarser unit proved. |
| C06 | Comparison agrees with numeric order | `amount.go` | `Props/Amount` | partial: False when the right operand has more decimals (truncated before comparing). |
| C07 | Negation | `amount.go` | `Props/Amount` | proved |
| C08 | Width equals printed length | `amount.go`, `pow10.go` | `Props/Amount` | proved |
| C09 | Integer logarithm and powers | `pow10.go`, `commodity.go` | `Props/Amount` | proved |
| C10 | Fraction amounts round down | `amount.go` | `Props/Amount` | proved |
| C11 | Magnitude comparison | `amount.go` | `Props/Amount` | partial: False across different decimals. |

### C12–C16: conversion as a recursion over an arbitrary finite price graph with explicit iteration order; termination by a measure on visited currencies, soundness and completeness against a path relation

| id | property | code | proofs | status |
|----|----------|------|--------|--------|
| C12 | Conversion always terminates | `commodity.go` | `Props/Convert` | proved |
| C13 | Conversion succeeds exactly when prices connect | `commodity.go` | `Props/Convert` | proved |
| C14 | Conversion does not depend on map order | `commodity.go` | `Props/Convert` | partial: False with several price chains (DFS in map order); success, direct prices and single-currency tables proved order independent. |
| C15 | Converted amount is in the target commodity | `commodity.go`, `amount.go` | `Props/Convert` | partial: False: the result keeps the source commodity; the number is right for direct prices with equal decimals. |
| C16 | Conversion uses the most recent price | `coin.go`, `commodity.go` | `Props/Convert` | proved |

### C17–C19: the real `sort.Find` binary search; invariant over all operation sequences

| id | property | code | proofs | status |
|----|----------|------|--------|--------|
| C17 | Account postings stay sorted and duplicate free | `account.go`, `posting.go` | `Props/Postings` | proved |
| C18 | Postings behave like a set; ties keep arrival order | `account.go` | `Props/Postings` | proved |
| C19 | Moving a posting loses nothing | `posting.go` | `Props/Postings` | proved |

### C20–C25: name-indexed store of accounts with arbitrary iteration orders; invariants, induction on names

| id | property | code | proofs | status |
|----|----------|------|--------|--------|
| C20 | Accounts form one tree | `coin.go`, `account.go` | `Props/Accounts` | proved |
| C21 | Missing ancestors are created, nothing else is | `coin.go` | `Props/Accounts` | partial: The set of names is proved; a declared account named Unbalanced is replaced by a default one. |
| C22 | Closing an account closes its subtree | `account.go` | `Props/Accounts` | proved |
| C23 | Depth counts name components | `account.go` | `Props/Accounts` | partial: False for accounts declared as Root:x. |
| C24 | Ambiguous account patterns are rejected | `coin.go` | `Props/Accounts` | partial: False: only the first two matches are compared, by string prefix. |
| C25 | Shortened account names | `account.go` | `Props/Accounts` | proved |

### C26–C32: induction over transactions, postings and the loop of the checks; conservation lemma

| id | property | code | proofs | status |
|----|----------|------|--------|--------|
| C26 | Accepted single-commodity transactions balance | `coin.go` | `Props/Ledger` | proved |
| C27 | Unbalanced transactions are rejected | `coin.go` | `Props/Ledger` | proved: Panics/exits of currency conversion inside a sum are part of the first theorem's acceptance condition. |
| C28 | An elided amount is the unique balancing one | `coin.go` | `Props/Ledger` | proved |
| C29 | Running balances | `account.go`, `coin.go` | `Props/Ledger` | proved |
| C30 | Balance assertions are checked and kept | `account.go` | `Props/Ledger` | proved |
| C31 | Accounting equation | `coin.go`, `account.go` | `Props/Ledger` | proved |
| C32 | Transactions end up in date order | `transaction.go`, `coin.go` | `Props/Ledger` | proved |

### C33–C35: specification of `sort.Search`

| id | property | code | proofs | status |
|----|----------|------|--------|--------|
| C33 | Day lookup | `transaction.go` | `Props/Range` | proved |
| C34 | Begin/end filters | `cmd/coin/utils.go` | `Props/Range` | proved |
| C35 | Stats date range | `cmd/coin/stats.go` | `Props/Range` | proved |

### C36–C38: induction over account trees

| id | property | code | proofs | status |
|----|----------|------|--------|--------|
| C36 | balance totals | `cmd/coin/balance.go` | `Props/Balance` | proved: One commodity in the subtree; conversions between commodities are covered by C12-C15 only. |
| C37 | balance cumulative totals | `cmd/coin/balance.go`, `account.go` | `Props/Balance` | proved |
| C38 | balance row selection | `cmd/coin/balance.go` | `Props/Balance` | proved |

### C39–C47: induction over postings; bookkeeping of merged timelines

| id | property | code | proofs | status |
|----|----------|------|--------|--------|
| C39 | register running totals | `cmd/coin/register.go`, `cmd/coin/postings.go` | `Props/Register` | proved |
| C40 | register does not crash on a loaded ledger | `cmd/coin/postings.go`, `transaction.go` | `Props/Register` | partial: False: a one-posting transaction (zero or elided amount) loads and crashes the register. Proved when every transaction has at least two postings. |
| C41 | Period totals | `cmd/coin/totals.go` | `Props/Aggregate` | proved |
| C42 | Merging timelines | `cmd/coin/totals.go` | `Props/Aggregate` | proved |
| C43 | Top n keeps the grand total | `cmd/coin/totals.go` | `Props/Aggregate` | partial: False: with n+1 accounts the smallest one is dropped and there is no Other. Proved for every other number of accounts. |
| C44 | Aggregated register does not crash | `cmd/coin/register.go`, `cmd/coin/totals.go` | `Props/Aggregate` | partial: False: crashes with nothing selected, and when -g leaves the root account out. Proved when -g leaves no account out, something is selected and no category is empty. |
| C45 | Columns are aligned in time | `cmd/coin/register.go`, `cmd/coin/totals.go` | `Props/Aggregate` | proved |
| C46 | Cumulative aggregation | `cmd/coin/totals.go` | `Props/Aggregate` | proved |
| C47 | Inverted payee filter | `cmd/coin/register.go` | `Props/Register` | partial: False with -r: trim strips the ! from the command's own field, so only the first account is inverted. |

### C48–C50: induction over notes and postings

| id | property | code | proofs | status |
|----|----------|------|--------|--------|
| C48 | Inverted tag filter | `tags.go` | `Props/Register`, `Props/TagExpr` | partial: False: an inverted expression looks for any tag that does not match. |
| C49 | modify changes every selected posting and nothing else | `cmd/coin/modify.go` | `Props/Modify` | partial: False: only the first matching posting of a transaction is moved. Proved: exactly that, the full claim for at most one matching posting, and that nothing else ever changes. |
| C50 | modify adds the tag | `cmd/coin/modify.go`, `tags.go` | `Props/Modify` | partial: False: a tag appended to a note that ends in a valued tag is swallowed, and a later note with the same key wins. Proved for the remaining placements. |

### C51–C52: file system operations with a crash after any of them: invariant over all crash points

| id | property | code | proofs | status |
|----|----------|------|--------|--------|
| C51 | In-place rewriting is crash safe | `cmd/coin/format.go`, `cmd/coin/modify.go` | `Props/Format` | partial: False between remove and rename. Proved: at every crash point the complete old or the complete new content exists under the name or the temporary name, and no other file changes. |
| C52 | In-place rewriting keeps other content | `cmd/coin/format.go` | `Props/Format` | partial: False: only transactions are written back. The partial theorem says what remains for canonical transactions. |

### C53–C55: writer against the regular-expression based parser: lemmas of the regex engine, round trip by induction

| id | property | code | proofs | status |
|----|----------|------|--------|--------|
| C53 | Written transactions read back | `transaction.go`, `posting.go` | `Props/RoundTrip` | proved |
| C54 | Formatting is idempotent | `transaction.go` | `Props/Format` | partial: False for notes starting with a blank and for notes without description. Proved when the written transactions are canonical. |
| C55 | format only reorders | `cmd/coin/format.go`, `coin.go` | `Props/Format` | proved |

### C56–C60: proleptic Gregorian calendar; arithmetic (`omega`)

| id | property | code | proofs | status |
|----|----------|------|--------|--------|
| C56 | Full dates read back | `date.go` | `Props/Date` | partial: False for the years 0 to 99, whose four digit form is read as a two digit year. |
| C57 | Two digit years | `date.go` | `Props/Date` | partial: False when the current year is more than 150 years into its millennium (e.g. 1999). |
| C58 | Omitted years | `date.go` | `Props/Date` | proved |
| C59 | Date offsets | `date.go` | `Props/Date` | proved |
| C60 | Period reduction | `cmd/coin/totals.go` | `Props/Periods` | proved |

### C61–C65: line parser with explicit regular expressions; characterisation of accepted lines, round trips

| id | property | code | proofs | status |
|----|----------|------|--------|--------|
| C61 | Parser never crashes | `parser.go`, `transaction.go`, `account.go` | `Props/Parsing` | partial: False: several malformed texts crash. Proved: the list of causes is complete, every other text is loaded or reported as wrong. |
| C62 | An empty note line is not a posting | `transaction.go` | `Props/Parsing` | partial: False: an empty note line becomes a posting with an empty account name. Proved for note lines with text. |
| C63 | A transaction ends where the next item begins | `transaction.go` | `Props/Parsing` | partial: False: the posting expression is not anchored. Proved: exact characterisation of the lines that are taken for postings, all others end the transaction. |
| C64 | Tags | `tags.go` | `Props/Tags` | partial: False: one-character values, values before a final comma, and values containing further tags are not read as written. The partial theorem covers the grammar of lines for which the claim holds; missing: note lines outside that grammar. |
| C65 | Commodities, accounts and prices read back | `commodity.go`, `account.go`, `price.go` | `Props/ReadBack` | partial: Accounts and prices read back exactly; a commodity loses its symbol and its default line, everything else reads back. Account descriptions of one character are not accepted by the parser and are excluded. |

### C66–C71: induction over imported entries, rules and postings

| id | property | code | proofs | status |
|----|----------|------|--------|--------|
| C66 | Imported transactions are balanced | `transaction.go` | `Props/Import`, `Props/ImportFile` | proved |
| C67 | Duplicate detection | `cmd/ofx2coin/main.go`, `transaction.go` | `Props/Import` | partial: False: times are compared as instants while ledger dates are noon UTC, so importing a file twice writes everything twice. Proved exactly for comparison by instant (C67_exact) and, by day, when the imported times are noon UTC. |
| C68 | Merging a duplicate keeps its balance | `transaction.go`, `cmd/ofx2coin/main.go` | `Props/Import` | partial: False: FindEqual returns its argument, so the duplicate is merged with itself and its balance is always lost. MergeDuplicate itself is proved to keep balances. |
| C69 | First matching rule wins | `rules.go` | `Props/Rules` | proved |
| C70 | Rule lookup terminates | `rules.go` | `Props/Rules` | partial: False: a rule set can refer to itself. Proved for all accepted files without such a reference. |
| C71 | Duplicate report | `cmd/coin/stats.go`, `transaction.go` | `Props/Stats` | proved |

### C72–C74: sums over selected postings; regex lemmas for dates

| id | property | code | proofs | status |
|----|----------|------|--------|--------|
| C72 | Aggregated register values | `cmd/coin/register.go`, `cmd/coin/totals.go` | `Props/Aggregate` | proved |
| C73 | Month and year texts | `date.go` | `Props/Date` | proved |
| C74 | Only whole dates are accepted | `date.go` | `Props/Date`, `Props/DateCut` | partial: False: the expression is not anchored, anything may follow a date. Proved exactly: a text is accepted iff it begins with a whole date, and its value is then that of such a beginning. |

### C75–C78: rule files: parser of sections, regex lemmas, round trip

| id | property | code | proofs | status |
|----|----------|------|--------|--------|
| C75 | A rule matches by the pattern written on its line | `rules.go` | `Props/Rules` | partial: False for patterns of one character: the rule matches every payee. Proved for all longer patterns. |
| C76 | Empty lines in a rule file | `rules.go` | `Props/Rules` | partial: False within a section: the next line becomes a header. Proved for empty lines between sections. |
| C77 | Statement balance | `cmd/ofx2coin/main.go` | `Props/ImportFile` | partial: False when a rule drops the last entry. Proved otherwise. |
| C78 | Dumped rules read back | `rules.go` | `Props/Rules`, `Props/RulesDump` | partial: False: dumping a rule that drops transactions panics, and notes are not written. Proved for sections of other rules, and for whole files made of them. |

### C79–C81: loading as a recursion over included files; termination by the files not yet open

| id | property | code | proofs | status |
|----|----------|------|--------|--------|
| C79 | Included files are loaded in place | `coin.go`, `include.go` | `Props/Load` | proved |
| C80 | Include loops | `coin.go`, `include.go` | `Props/Load` | proved |
| C81 | Every ledger file is loaded once | `coin.go` | `Props/Load` | partial: False: without a transactions.coin the prices file is loaded again by the glob, and with one other .coin files are not read. Proved exactly how often each file is read; each .coin file once when neither prices.coin nor transactions.coin exists; no price twice when transactions.coin exists or prices.coin does not. |

### C82–C83: regex of account patterns against a direct description; layout of written lines

| id | property | code | proofs | status |
|----|----------|------|--------|--------|
| C82 | Account patterns | `coin.go` | `Props/Pattern` | proved: Patterns made of words, colons and the two anchors; other regular expressions are passed to Go's engine and are not modelled. |
| C83 | Layout of written transactions | `transaction.go`, `posting.go`, `amount.go` | `Props/Writer` | partial: Alignment is false for a quantity with other decimals than its account's commodity; proved otherwise for ASCII account names. |

### C84–C88: generator with its random numbers as parameters: induction over the dates and rules

| id | property | code | proofs | status |
|----|----------|------|--------|--------|
| C84 | Weekly dates of a sample | `cmd/gen2coin/dates.go` | `Props/Generate` | partial: False: the end date is left out when it is a Sunday. Proved: exactly everything else. |
| C85 | Monthly dates of a sample | `cmd/gen2coin/dates.go` | `Props/Generate` | partial: False: the end date is left out when it is the first of a month. Proved: exactly everything else. |
| C86 | Splitting a ledger into files | `cmd/gen2coin/main.go` | `Props/Generate` | proved |
| C87 | Balances on generated postings | `cmd/gen2coin/main.go`, `cmd/gen2coin/rule.go`, `account.go` | `Props/Generate` | partial: False: every balance is too large by the account's final balance. Proved: exactly that. |
| C88 | Generated amounts | `cmd/gen2coin/rule.go` | `Props/Generate` | proved |

### C89–C90: tag reducers and the tags command: induction over postings

| id | property | code | proofs | status |
|----|----------|------|--------|--------|
| C89 | Tag categories | `cmd/coin/totals.go`, `tags.go` | `Props/TagsCmd` | proved |
| C90 | tags command | `cmd/coin/tags.go` | `Props/TagsCmd` | proved |

### C91–C94: composition of the importer or the test runner with the parser

| id | property | code | proofs | status |
|----|----------|------|--------|--------|
| C91 | What ofx2coin writes reads back | `cmd/ofx2coin/main.go`, `transaction.go` | `Props/ImportFile` | partial: False: a payee with a semicolon is read back as payee and note. Proved for payees without semicolon that do not look like a code. |
| C92 | Filled in test results read back | `cmd/coin/test.go`, `test.go` | `Props/TestFill` | partial: False: the output of a test without end line is written but not read back. Proved for tests with their end line and outputs of whole lines. |
| C93 | Missing results go below their tests | `cmd/coin/test.go` | `Props/TestCmd` | partial: False when a file includes another one with tests between its own tests: stale line numbers, the result ends up above the test. Proved when the tests of each file follow each other. |
| C94 | Test verdicts | `cmd/coin/test.go` | `Props/TestCmd` | partial: False for several files: the verdict of one is printed for another. Proved for one file, and with -v for any files. |

### C95–C101: csv field templates, derivation graph, composition with the parser

| id | property | code | proofs | status |
|----|----------|------|--------|--------|
| C95 | Values of a csv record | `cmd/csv2coin/rules.go` | `Props/Csv` | partial: False: a dollar sign that does not start a reference is dropped, and panics at the end of the template. Proved for templates without other dollar signs. |
| C96 | Derived values end | `cmd/csv2coin/rules.go` | `Props/Csv` | partial: False for circular derivations. Proved for references that can be ordered. |
| C97 | Csv transactions balance | `cmd/csv2coin/main.go` | `Props/Csv` | partial: False when the traded symbol is the currency. Proved otherwise. |
| C98 | Accounts of csv transactions | `cmd/csv2coin/main.go` | `Props/Csv` | partial: False: sub-accounts come before the account itself, so a row of an account with a sub-account in the same commodity is booked on the sub-account. Proved: exactly that choice for all trees (C98_accounts), and the claim when no sub-account has the commodity of its account. |
| C99 | Every csv record is imported | `cmd/csv2coin/main.go` | `Props/CsvFile` | partial: False: records must have as many fields as the header lines. Proved for files of one width. |
| C100 | csv.rules is read as written | `cmd/csv2coin/rules.go`, `cmd/csv2coin/main.go` | `Props/CsvRules` | partial: False: a file without the separator exits, one with nothing after it panics on the first record, and a dump with a source is never readable. Proved for files with both sections. |
| C101 | What csv2coin writes reads back | `cmd/csv2coin/main.go`, `transaction.go` | `Props/CsvFile` | partial: False: the part of a description after a semicolon is read back as a note. Proved for descriptions that are read as such. |

### C102–C104: text repair and list commands: induction over lines and names

| id | property | code | proofs | status |
|----|----------|------|--------|--------|
| C102 | OFX headers of BMO files are repaired | `cmd/ofx2coin/bmo.go` | `Props/Bmo` | partial: False: a last line without a line feed is lost. Proved for everything before it; texts with CRLF line ends are not repaired. |
| C103 | The accounts command lists the open accounts | `cmd/coin/accounts.go`, `coin.go`, `account.go` | `Props/ListCmd` | proved |
| C104 | The commodities command lists commodities and prices | `cmd/coin/commodities.go`, `coin.go` | `Props/ListCmd` | partial: False for prices in several currencies, which come in blocks in map order. Proved for commodities, and for prices in one currency. |

### C105–C109: GnuCash books: decoded XML to ledger, composition with the whole loader

| id | property | code | proofs | status |
|----|----------|------|--------|--------|
| C105 | gc2coin converts the tree of accounts | `gnucash/account.go` | `Props/Gnucash` | partial: False: names that differ only in blanks, or a colon in a name, give one full name, and then which account is kept depends on map iteration order; an online_id without digits panics. Proved for every tree when siblings' names differ without blanks and have no colon. |
| C106 | gc2coin keeps amounts | `gnucash/gnucash.go`, `gnucash/commodity.go` | `Props/Gnucash` | partial: False: amounts with more decimals than the commodity are rounded down, so a balanced transaction can become unbalanced; a commodity without fraction element gets no decimals. Proved exact when the denominator divides the power of ten. |
| C107 | gc2coin -y splits a book by year | `cmd/gc2coin/main.go` | `Props/GcFiles` | partial: False: a book without prices or transactions panics with -y, and with several zones a year's file can be created twice, losing transactions. Proved when years do not go back (in particular in one zone), and without -y for all books. |
| C108 | gc2coin keeps transactions | `gnucash/transaction.go`, `gnucash/split.go`, `gnucash/gnucash.go` | `Props/GcTxns` | proved: Date texts in GnuCash's own layout; other texts that Go's parser accepts are a parameter. |
| C109 | coin loads what gc2coin writes | `cmd/gc2coin/main.go`, `coin.go` | `Props/GcLoad` | partial: False: names with characters that coin does not allow are cut (R&D becomes R), and with -y an older transactions.coin hides the files of years. Proved end to end (write, then LoadAll) for books in canonical form, without -y into any directory, with -y into one without coin files. |

### C110–C115: 53-bit rounding, price index, breadth first search with its cache: invariants over all reachable caches

| id | property | code | proofs | status |
|----|----------|------|--------|--------|
| C110 | The page keeps amounts | `amount.go`, `cmd/coin2html/js/src/commodity.ts` | `Props/WebAmount` | partial: False above 2^53 smallest units (JavaScript numbers); proved for all amounts up to that. Doubles are modelled by exact rounding to 53 bits. |
| C111 | The page prints amounts | `cmd/coin2html/js/src/commodity.ts` | `Props/WebAmount` | partial: Printing proved; reading back what is displayed is false from one million on: only the first comma is dropped. |
| C112 | The page converts by a price | `cmd/coin2html/js/src/commodity.ts`, `amount.go` | `Props/WebAmount` | proved: For products of the scaled integers below 2^53. |
| C113 | The page picks a price of the date | `cmd/coin2html/js/src/commodity.ts` | `Props/WebConvert` | partial: False on the day of a price: prices are sampled by week and the first price after the Sunday is used, so a price of the future may be used; proved that the Sunday is at most eleven days away. |
| C114 | The page finds chains of prices | `cmd/coin2html/js/src/commodity.ts` | `Props/WebChain`, `Props/WebMulti` | proved: Breadth first search with the cache of composed conversions; all reachable caches. |
| C115 | Conversions over chains are exact to a unit | `cmd/coin2html/js/src/commodity.ts` | `Props/WebChain` | partial: False: the composed price is rounded first, 1,000,000.00 X worth 4,000.00 Z shows as 0. Proved: the error is at most half a unit plus half a unit per unit of the amount. |

### C116–C118: encoder and decoder of JSON inverse of each other; composition with the page's loader

| id | property | code | proofs | status |
|----|----------|------|--------|--------|
| C116 | The data in the page survives as text | `cmd/coin2html/main.go`, `cmd/coin2html/js/src/commodity.ts`, `cmd/coin2html/js/src/account.ts` | `Lemmas/Json`, `Props/Page` | proved: Go's encoder and JavaScript's JSON.parse are modelled from their documentation |
| C117 | The page has the ledger's accounts | `cmd/coin2html/js/src/account.ts`, `account.go`, `coin.go` | `Props/Page` | partial: false of the code: an account such as Assets:Root is dropped (and its postings make loading fail); proved when no other account is called Root |
| C118 | The page has the whole ledger | `cmd/coin2html/main.go`, `cmd/coin2html/js/src/ui.ts`, `cmd/coin2html/js/src/account.ts`, `cmd/coin2html/js/src/commodity.ts`, `transaction.go`, `posting.go`, `price.go`, `commodity.go` | `Props/PageLoad`, `Props/Views` | partial: false of the code: a ledger without transactions cannot be loaded; proved for at least one transaction, amounts up to 2^53 units, years 100 to 9999, non-zero prices |

### C119–C122: list induction over the page's postings; composition with the ledger loader

| id | property | code | proofs | status |
|----|----------|------|--------|--------|
| C119 | Dates on the page | `cmd/coin2html/js/src/utils.ts`, `cmd/coin2html/js/src/ui.ts` | `Props/Views` | partial: false of the code: east of UTC every date is shown a day early and the first day of a range entered by the user is lost, west of UTC its last day; proved exactly what is shown in each zone (zones without daylight saving) |
| C120 | Register of an account | `cmd/coin2html/js/src/viewsRegister.ts` | `Props/Views` | proved: sums up to 2^53 units in the account's commodity |
| C121 | The account on the other side | `cmd/coin2html/js/src/account.ts` | `Props/Views` | partial: false of the code: a lone posting of zero has none and its register throws; proved for transactions of one commodity with at least two postings |
| C122 | Balances on the page | `cmd/coin2html/js/src/account.ts`, `check.go`, `transaction.go` | `Props/ViewBalance` | partial: false of the code: transactions asserting a balance are moved to the end of their day after balances are computed; proved when they are written last |

### C123–C136: induction over the account tree, the groups of postings and the columns of a view

| id | property | code | proofs | status |
|----|----------|------|--------|--------|
| C123 | Lists of subaccounts | `cmd/coin2html/js/src/account.ts` | `Props/ViewTree` | proved |
| C124 | Totals of balances on the page | `cmd/coin2html/js/src/account.ts` | `Props/ViewTree` | proved: balances of one commodity that together stay within 2^53 units |
| C125 | Table of balances | `cmd/coin2html/js/src/viewsBalances.ts`, `cmd/coin2html/js/src/account.ts` | `Props/ViewTree` | proved: balances of one commodity that together stay within 2^53 units |
| C126 | Register with subaccounts | `cmd/coin2html/js/src/account.ts`, `cmd/coin2html/js/src/viewsRegister.ts` | `Props/ViewTree` | proved: running sums of one commodity within 2^53 units |
| C127 | Path of an account | `cmd/coin2html/js/src/account.ts` | `Props/ViewTree` | proved |
| C128 | Every account can be viewed | `cmd/coin2html/js/src/views.ts`, `cmd/coin2html/js/src/ui.ts` | `Props/ViewTree` | partial: false of the code: only accounts below one of six top level names can be viewed, and the page needs an account Assets; proved exactly that |
| C129 | Aggregated register | `cmd/coin2html/js/src/utils.ts`, `cmd/coin2html/js/src/viewsRegister.ts`, `cmd/coin2html/js/src/views.ts` | `Props/ViewGroup` | proved: postings of one commodity, partial sums within 2^53 units, years 100 to 9999 |
| C130 | Aggregated registers are complete | `cmd/coin2html/js/src/utils.ts`, `cmd/coin2html/js/src/viewsRegister.ts` | `Props/ViewGroup` | partial: false of the code: postings of a partial first period and of a period starting on the last date are dropped, postings after the last date in its period are included; proved exactly which are added (C130_rows_sum), and the claim for ranges starting with a period and ending inside one, as for months, quarters and years when the page opens |
| C131 | Aggregated balances | `cmd/coin2html/js/src/utils.ts`, `cmd/coin2html/js/src/viewsRegister.ts` | `Props/ViewGroup` | partial: false of the code: balances are zero until the first posting inside the table; proved when the account has no earlier posting, and exactly what is shown otherwise |
| C132 | Columns of subaccounts | `cmd/coin2html/js/src/utils.ts`, `cmd/coin2html/js/src/account.ts` | `Props/ViewColumns` | partial: false of the code: a maximum of zero shows the smallest account only, and a range in which no period starts throws; proved for a maximum of at least one and ranges with a period |
| C133 | Totals of the register with subaccounts | `cmd/coin2html/js/src/viewsRegister.ts` | `Props/ViewColumns` | partial: false of the code: Cum.Total repeats Total; rows, cells and totals proved |
| C134 | Details of a group | `cmd/coin2html/js/src/utils.ts` | `Props/ViewColumns` | proved: amounts that can be converted |
| C135 | Bars of the chart | `cmd/coin2html/js/src/viewsAggregatedRegisterChart.ts` | `Props/ViewColumns` | proved: amounts of the account's commodity below 2^53 units |
| C136 | The period chosen for a range | `cmd/coin2html/js/src/views.ts` | `Props/ViewColumns` | proved |

### C137–C144: induction over the rows printed; decoders of CSV and JSON lines written as specifications and proved inverse of the printers

| id | property | code | proofs | status |
|----|----------|------|--------|--------|
| C137 | Balance output | `cmd/coin/balance.go`, `amount.go` | `Props/TextOut` | proved: amounts below 10^50 (Width stops there) and commodities of at most 50 decimals |
| C138 | Register output | `cmd/coin/postings.go`, `cmd/coin/register.go` | `Props/TextOut` | partial: lines, order and contents proved; equal widths are false of the code: the column of totals is as wide as the last total, and descriptions over 50 characters or names that cannot be shortened overflow; proved otherwise |
| C139 | Table of the aggregated register | `cmd/coin/totals.go` | `Props/TableOut` | partial: false of the code: the amount of an empty category (no description) is printed as <nil>; proved when no category is empty, -g large enough and no amount has more than 50 digits |
| C140 | CSV output reads back | `cmd/coin/totals.go` | `Props/PlainOut` | partial: false of the code: with an empty category the command panics; proved otherwise, for all fields, with a reader that follows RFC 4180 |
| C141 | JSON output reads back | `cmd/coin/totals.go` | `Props/PlainOut` | proved: the record contents are those of C140_register_csv |
| C142 | Prices in the other direction | `cmd/coin2html/js/src/commodity.ts` | `Props/Reverse` | proved: prices whose reciprocal has less than 2^49 smallest units; the error is at most three quarters of a unit |
| C143 | There and back | `cmd/coin2html/js/src/commodity.ts` | `Props/Reverse` | partial: false of the code: the reverse price is rounded to the decimals of the commodity, 1000.00 USD become 1330.00 CAD and then 997.50 USD; proved bound of the error |
| C144 | Names in the register | `cmd/coin/postings.go`, `cmd/coin/register.go` | `Props/RegNames` | partial: false of the code: the prefix is cut inside a component, CashBack and Back are both shown as Back on the register of Cash; proved for accounts whose names do not go on after the prefix without a colon |

### C145–C149: sums over several commodities against a relational specification; a reader invariant for what the parser can produce

| id | property | code | proofs | status |
|----|----------|------|--------|--------|
| C145 | Balances over several commodities | `cmd/coin/balance.go`, `cmd/coin/totals.go`, `amount.go`, `price.go` | `Props/Multi` | proved: the order in which prices of a commodity are tried when there is no direct one is fixed for a run; the error bound is for direct prices and commodities with at least as many decimals as the currency |
| C146 | Registers over several commodities | `cmd/coin/register.go`, `cmd/coin/postings.go`, `amount.go` | `Props/Multi` | proved: with -r for payee filters that do not start with an exclamation mark (C26) |
| C147 | What is loaded survives being written | `transaction.go`, `account.go`, `price.go`, `commodity.go`, `parser.go`, `amount.go` | `Props/Parsed` | proved: for transactions between the years 100 and 9999 whose description and notes do not end in a carriage return, with notes only under a description and not indented further, at least one posting, and amounts with at most 50 decimals that fit 64 bits when written with all decimals |
| C148 | What format writes is accepted again and final | `cmd/coin/format.go`, `transaction.go`, `parser.go`, `amount.go` | `Props/Parsed` | partial: false of the code: 9223372036854775807 CAD is accepted and written with decimals, which is then rejected as too big; proved for files that declare no commodities of their own and transactions as in C147 |
| C149 | The page over several commodities | `cmd/coin2html/js/src/commodity.ts`, `cmd/coin2html/js/src/account.ts`, `cmd/coin2html/js/src/utils.ts`, `cmd/coin2html/js/src/viewsRegister.ts` | `Props/WebMulti` | proved: as long as the running sums are at most 2^53 smallest units; summer time is not modelled |

### C150–C155: refinement of the earlier models by the same models with the program's shared state, the scanner's limit and the `flag` package

| id | property | code | proofs | status |
|----|----------|------|--------|--------|
| C150 | Every file of a ledger that loads can be formatted | `cmd/coin/format.go`, `cmd/coin/modify.go`, `coin.go`, `transaction.go` | `Props/FormatOwn` | partial: false of the code: accounts declared in the file itself (or in an earlier file of the same run) are not resolved, and a posting to one of them panics; proved: exactly the files without such postings are formatted, and several files without declarations are formatted independently |
| C151 | Long lines of a ledger | `parser.go`, `coin.go`, `transaction.go`, `price.go`, `include.go` | `Props/Scanner` | proved |
| C152 | Long lines of rule files | `rules.go`, `cmd/csv2coin/rules.go` | `Props/Scanner` | partial: ofx.rules proved; false of csv.rules: a long line right after the separator drops all rules for accounts silently |
| C153 | Flags in any spelling and order | `cmd/coin/main.go`, `cmd/coin/balance.go`, `cmd/coin/register.go` | `Props/CommandLine` | proved: the run for balance and register; number and date syntax are parameters |
| C154 | Flags behind the account | `cmd/coin/main.go`, `cmd/coin/balance.go`, `cmd/coin/register.go` | `Props/CommandLine` | partial: false of the code: everything behind the first argument is ignored without a message, flags too; proved for flags before it |
| C155 | The command may be left out | `cmd/coin/main.go` | `Props/CommandLine` | partial: false of the code: balance is assumed only without any argument, coin -l 1 is refused as an unknown command; proved for no arguments |

### C156–C158: composition: files, loader, resolution, report, text

| id | property | code | proofs | status |
|----|----------|------|--------|--------|
| C156 | From the files to the balance report | `coin.go`, `cmd/coin/main.go`, `cmd/coin/balance.go` | `Props/Program`, `Props/ProgramAny` | proved: end to end: scanner, parser, includes, prices, accounts, transactions, flags, report, text; for -l other than 0 the account names must be plain (C23) |
| C157 | From the files to the register | `coin.go`, `cmd/coin/main.go`, `cmd/coin/register.go`, `cmd/coin/postings.go` | `Props/ProgramAny` | proved: end to end: scanner, parser, includes, prices, accounts, transactions, flags, report, text |
| C158 | The unit on a register line | `cmd/coin/postings.go`, `cmd/coin/register.go` | `Props/ProgramAny` | partial: false of the code: with -r the running total, in the commodity of the account asked for, is labelled with the commodity of the account of the line; proved when the accounts shown have one commodity |

### C159–C165: relational grammar of the written text, proved against the transcribed regular expressions with all their backtracking

| id | property | code | proofs | status |
|----|----------|------|--------|--------|
| C159 | What a commodity declaration means | `commodity.go`, `parser.go`, `coin.go` | `Props/Syntax` | proved |
| C160 | What an account declaration means | `account.go`, `parser.go` | `Props/Syntax` | partial: false of the code for notes of one character, which are refused; proved for everything else |
| C161 | What a price line means | `price.go`, `amount.go` | `Props/SyntaxTxn` | proved: one blank behind P; years of four digits |
| C162 | What a transaction means | `transaction.go`, `amount.go` | `Props/SyntaxTxn` | partial: false of the code: a line at the margin right below a transaction is taken for a posting if it has a word behind a blank; a semicolon alone becomes a posting without account; a note on a first line without description becomes the description. Proved in any layout when the next line does not look like a posting |
| C163 | A ledger file means what its declarations say | `coin.go`, `parser.go`, `include.go`, `test.go` | `Props/SyntaxTxn` | proved: for the layouts of C159-C162 |
| C164 | Ledger-compatible output | `commodity.go`, `posting.go`, `transaction.go`, `account.go`, `price.go`, `amount.go` | `Props/LedgerOut` | proved |
| C165 | Reading ledger-compatible output | `cmd/coin/format.go`, `posting.go`, `transaction.go`, `coin.go` | `Props/LedgerOut` | partial: false of the code: coin does not read quoted commodities; an amount with one, and the assertion and note behind it, silently disappear (C165_reread says exactly what is left). Proved for commodities without digits; two lost amounts are refused when transactions are resolved |

### C166–C199: induction over the lists of statements, accounts and draws; maps are lists in an arbitrary order, and order-independence is proved or refuted over permutations

| id | property | code | proofs | status |
|----|----------|------|--------|--------|
| C166 | The account of a statement | `coin.go`, `rules.go`, `cmd/ofx2coin/main.go` | `Props/OfxIds` | partial: false of the code: two accounts with the same id, or a statement without an id, make the account posted to depend on the iteration order of a map. Proved when at most one account carries the id of each statement; C166_posts holds for every successful import in any order |
| C167 | Listing of accounts with an OFX id | `cmd/ofx2coin/main.go`, `coin.go` | `Props/OfxIds` | proved |
| C168 | gen2coin writes a ledger that opens | `cmd/gen2coin/main.go`, `cmd/gen2coin/rules_personal.go`, `cmd/gen2coin/rule.go`, `coin.go` | `Props/GenLoad` | proved: Opening is proved up to 15000 transactions: interest compounds, so with very many transactions an amount no longer fits the 64 bits of the parser. A directory that already holds coin files, -wb (C87) and -j are not included. |
| C169 | Aggregated register from the files to the output | `cmd/coin/register.go`, `cmd/coin/totals.go`, `coin.go` | `Props/ProgramAgg` | proved: Ledgers of one commodity. Where -g leaves accounts out, nothing is selected, or a category is empty the command crashes or drops numbers (C43, C44, C139, C140). |
| C170 | Accounts command from the files to the output | `cmd/coin/accounts.go`, `coin.go` | `Props/Reports` | partial: The listing is proved for all files; that it has all accounts is false of the code: the command reads only the files of commodities and accounts, so an account declared beside prices or transactions is missing. |
| C171 | Tags command from the files to the output | `cmd/coin/tags.go`, `coin.go` | `Props/ReportTags` | proved: From the text of the files and the argument list to the bytes printed, for every ledger that loads. |
| C172 | Stats command from the files to the output | `cmd/coin/stats.go`, `transaction.go`, `coin.go` | `Props/ReportStats` | proved: Duplicates are proved for ledgers whose amounts have the decimals of the commodity of their account; -c if the second amount of a two-posting transaction does not have more decimals than the first (see C06). File and line of a transaction are a parameter. |
| C173 | Commodities command from the files to the output | `cmd/coin/commodities.go`, `commodity.go`, `coin.go` | `Props/ReportComs` | proved: Amounts have at most 50 decimals (the table of powers); -p is proved if no currency is declared again after prices in it have been read. Quotes from the net (-q) and the text of a location are not modelled. |
| C174 | Test command with the commands its tests run | `cmd/coin/test.go`, `test.go`, `coin.go` | `Props/TestMain` | proved: The commands balance, register, tags, stats, accounts, commodities and version; accounts and commodities read fewer files when they run by themselves (C170, C173), so the text of these is that of the whole file. Tests that run format or modify are not modelled. The verdict without -v is for tests of one file: with several it is wrong (C94). |
| C175 | The same files give the same report | `coin.go`, `commodity.go`, `cmd/coin/balance.go`, `cmd/coin/register.go` | `Props/FormatKeeps`, `Props/RegisterKeeps`, `Props/Reproduce` | partial: False in general: a commodity with prices in two currencies is converted over the one a map yields first, so one ledger prints 2.00 CAD in one run and 3.00 CAD in the next. Proved where every commodity is priced in one currency and on no day twice with different values, for every command line of balance and register: the order of creation of accounts, of linking, of sorting and of walking them does not show. The order of the columns of an aggregated register (C169) and the text of locations are taken to be the same in both runs; no account name starts with a colon or with Root:. For a ledger of one commodity C175_balance_partial has the balance report, and C175_register_partial the plain register without -f, whatever the prices, column order and locations. |
| C176 | Formatting a file in place changes no report | `cmd/coin/format.go`, `transaction.go`, `coin.go`, `cmd/coin/balance.go`, `cmd/coin/register.go` | `Props/FormatKeeps`, `Props/RegisterKeeps` | partial: False for the register: format writes a transaction with an asserted balance behind the others of its day, so that the rows of a day change places and an assertion that was correct becomes wrong (register Cash shows 10.00* before and 6.50* after). Proved: the formatted ledger loads and differs from the old one only in that the transactions of the file are the completed ones in the order written (C176_loads); in a ledger of one commodity balance prints the same text under all flags and filters (C176_balance_partial); if besides in the file transactions with an asserted balance already stand behind the others of their day, the plain register without -f is the same too (C176_register_partial: when both runs print). All for files of transactions alone that no other file includes. |
| C177 | The balance report to the character | `cmd/coin/balance.go`, `coin.go`, `amount.go` | `Props/BalanceText` | proved: ExactBalance names accounts, order, widths and every character of each line; C177_unique shows that only one text fits. Assumes a ledger in one commodity with at most 50 decimals and no account name starting with a colon or with Root:. |
| C178 | The register to the character | `cmd/coin/register.go`, `posting.go`, `coin.go`, `amount.go` | `Props/RegisterText` | proved: ExactRegister names postings, order, running totals, widths and every character of each line; C178_unique shows that only one text fits (without -f, which adds file locations that are a parameter of the model). Covers every register that prints; whether it prints or stops with an error is C60 and C154. Assumes no account name starting with a colon or with Root:, and with -r a payee filter that does not start with an exclamation mark (the inverted one is applied wrongly there, see the register filter claims). |
| C179 | coin modify moves money only between the accounts named | `cmd/coin/modify.go`, `coin.go`, `cmd/coin/utils.go` | `Props/ModifyKeeps` | proved: From the command line and the directory to the reports. C179_loads gives the items of the ledger afterwards; C179_moves the totals of all accounts without -pt; C179_total and C179_tags_only hold with every combination of flags. Assumes a ledger in one commodity, a file of transactions alone that no other file includes, and texts that read back as written (ModifyRun.settled: no description or note that the parser would cut differently); filters with -t are left out because modify changes tags. |
| C180 | modify reports how many transactions it changed | `cmd/coin/modify.go` | `Props/ModifyCount` | partial: False: transactions that only get a tag by -tt: are changed but not counted (modify -a Food -tt: #moved reports 0). Proved: C180_reported says exactly which transactions are counted, under all flags; C180_count_partial: without -tt: the number is right, provided that postings are tagged or moved to another account. |
| C181 | format and modify take their files one by one | `cmd/coin/format.go`, `cmd/coin/modify.go`, `transaction.go` | `Props/OneByOne` | proved: Equivalences between runs: each side succeeds exactly when the other does, with the same files and texts. For files that add transactions and nothing else; files that declare accounts or commodities are C150 and FormatOwn. C181_in_place ties the command line to the format -i of C176. |
| C182 | A downloaded price is recorded as quoted | `commodity.go`, `cmd/coin/commodities.go` | `Props/Quotes` | partial: False of the code: the product with the power of ten is cut, not rounded, so 1.15 CAD is recorded as 1.14 CAD. Proved: a price with at most the decimals of its currency is recorded as it is or one unit lower, exactly if it is a float64 (1.25), and any price to within one unit and the rounding of one multiplication. float64 values are exact fractions rounded to 53 bits; the service is a parameter. |
| C183 | coin commodities -q prints a price for every commodity on the market | `cmd/coin/commodities.go`, `price.go` | `Props/Quotes` | proved: For all answers of the service, which is a parameter, but a nil pointer without an error: C183_unknown_crashes shows that the command then crashes. Currencies have at most 18 decimals (beyond that pow10 panics). |
| C184 | The balances chart shows the accounts of the balances table | `cmd/coin2html/js/src/viewsBalancesChart.ts`, `cmd/coin2html/js/src/account.ts` | `Props/Chart` | partial: False of the code: with the same depth the table goes one level deeper than the chart (C184_same_accounts_violated). Proved: which boxes the chart has, and that the table shows the accounts and totals of the chart of one level more; balances of one commodity within 2^53 units. |
| C185 | The boxes of the balances chart are as big as their totals | `cmd/coin2html/js/src/viewsBalancesChart.ts` | `Props/Chart` | partial: False of the code: balances in the other direction count as 0 in the areas but are subtracted in the totals (C185_area_violated). Proved: the value is the sum of the balances in the normal direction, is never less than the total, and equals it exactly when no balance is in the other direction. The division of each balance by 10^decimals and the rounding of the floating point sum are left out. |
| C186 | Tests do not depend on each other | `cmd/coin/test.go`, `cmd/coin/modify.go`, `cmd/coin/format.go` | `Props/TestWrites` | partial: False of the code: modify and format -t in a test change the transactions in memory, and later tests print them changed (C186_independent_violated). Proved: when all tests but the last change nothing the tests are independent; in general a test runs on the transactions as left by those before it, with the tags of when they were loaded. Tests of other commands are not in these sequences. |
| C187 | A test of modify or format shows what the command writes | `cmd/coin/test.go`, `cmd/coin/modify.go`, `cmd/coin/format.go` | `Props/TestWrites` | proved: for transactions as they are loaded (no test before changed them) and files that declare no accounts themselves |
| C188 | The balance report over any commodities to the character | `cmd/coin/balance.go`, `coin.go`, `amount.go` | `Props/BalanceTextAny` | proved: for account names that do not begin with a colon and are not below Root: (PlainNames); commodities with at most 50 decimals |
| C189 | The register is always printed | `cmd/coin/register.go`, `cmd/coin/postings.go`, `amount.go` | `Props/RegisterPrints` | proved: with -r the payee expression is not inverted (NoBang, see C47); transactions with one posting crash the register (C40_register_violated) |
| C190 | The register and the balance report agree | `cmd/coin/register.go`, `cmd/coin/balance.go`, `cmd/coin/postings.go` | `Props/Agree` | proved: the register is one without -n, -f and aggregation, whose lines end in the running total; the payee expression is not inverted (NoBang, see C47) |
| C191 | The aggregated register adds up to the balance report | `cmd/coin/register.go`, `cmd/coin/balance.go`, `cmd/coin/totals.go` | `Props/AgreeAgg` | proved: without -c; under the conditions of C169 on the register |
| C192 | Balances over adjoining ranges of dates add up | `cmd/coin/balance.go`, `cmd/coin/utils.go` | `Props/Ranges` | proved: with -z and without -l, so that every account has a line |
| C193 | The page and the balance report agree | `cmd/coin2html/main.go`, `cmd/coin2html/js/src/viewsRegister.ts`, `cmd/coin/balance.go`, `coin.go` | `Props/PageAgree` | proved: the page transactions are those C118 shows to be on the page; the register without subaccounts and aggregation |
| C194 | The books balance | `cmd/coin/balance.go`, `coin.go`, `cmd/coin/utils.go` | `Props/Books` | proved: without -t, which selects single postings |
| C195 | The page's register with subaccounts ends in the cumulative total | `cmd/coin2html/js/src/account.ts`, `cmd/coin2html/js/src/viewsRegister.ts`, `cmd/coin/balance.go` | `Props/PageFamily` | proved: the transactions and accounts are those C118 and C117 show to be on the page; without aggregation; closed accounts are shown or none is closed by the end of the range |
| C196 | The page's table of balances agrees with the balance report | `cmd/coin2html/js/src/viewsBalances.ts`, `cmd/coin2html/js/src/account.ts`, `cmd/coin/balance.go` | `Props/PageTable` | proved: the transactions and accounts are those C118 and C117 show to be on the page; with asserted balances see C122; closed accounts are shown or none is closed by the end of the day |
| C197 | The register explains the change of the balance on the page | `cmd/coin2html/js/src/viewsRegister.ts`, `cmd/coin2html/js/src/account.ts` | `Props/PageTotals` | proved: the page transactions are those C118 shows to be on the page; with asserted balances see C122 |
| C198 | Levels and the account asked for choose lines, not numbers | `cmd/coin/balance.go`, `cmd/coin/utils.go` | `Props/Levels` | proved: with -z, so that accounts without totals have lines too |
| C199 | The balances on the page add up to zero | `cmd/coin2html/js/src/account.ts`, `cmd/coin2html/main.go`, `coin.go` | `Props/PageBooks` | proved: the transactions and accounts are those C118 and C117 show to be on the page; with asserted balances see C122 |
