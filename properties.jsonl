{"id": "C01", "title": "Printed amounts read back unchanged", "statement": "For every amount whose printed digits fit a signed 64-bit integer and whose commodity has at most 50 decimals, printing it (String / Write) and parsing the printed number with the same commodity yields exactly the same value and commodity.", "quantifier": "all integers x all decimals 0..50", "why_tests_cant": "The domain is infinite; a table of examples samples a handful of values.", "anchors": ["amount.go:Amount.String", "amount.go:parseAmount", "amount.go:Amount.Write"]}
{"id": "C02", "title": "Exact parsing of well formed numbers", "statement": "A decimal literal [-]digits[.digits] with no more fraction digits than the commodity has decimals denotes exactly its mathematical value: parseAmount returns value*10^decimals, or an error when the digit string does not fit in 64 bits; it never returns a wrong value.", "quantifier": "all literals, all decimals", "why_tests_cant": "The domain is infinite; a table of examples samples a handful of values.", "anchors": ["amount.go:parseAmount"]}
{"id": "C03", "title": "Excess fraction digits are dropped toward zero", "statement": "A literal with more fraction digits than the commodity has decimals is shortened by dropping the extra digits, for negative as for positive values.", "quantifier": "all literals, all decimals", "why_tests_cant": "Tests only use positive examples; the sign matters.", "anchors": ["amount.go:parseAmount"]}
{"id": "C04", "title": "Adding amounts of one commodity is exact", "statement": "Adding any sequence of amounts of one commodity into a total gives the exact sum and is independent of order.", "quantifier": "all lists of amounts and all permutations", "why_tests_cant": "Unbounded lists and all orders.", "anchors": ["amount.go:Amount.AddIn"]}
{"id": "C05", "title": "Adding an amount of another commodity", "statement": "When a direct price exists the added value differs from the exact rational product by less than one smallest unit; when conversion is impossible the total is left unchanged and an error is returned.", "quantifier": "all totals, amounts, price databases", "why_tests_cant": "The domain is infinite; a table of examples samples a handful of values.", "anchors": ["amount.go:Amount.AddIn", "commodity.go:Commodity.Convert", "amount.go:Amount.Times"]}
{"id": "C06", "title": "Comparison agrees with numeric order", "statement": "IsEqual/IsLessThan/IsMoreThan decide the numeric order of the two amounts (trichotomy, antisymmetry, transitivity).", "quantifier": "all pairs/triples of amounts", "why_tests_cant": "The domain is infinite; a table of examples samples a handful of values.", "anchors": ["amount.go:Amount.Cmp"]}
{"id": "C07", "title": "Negation", "statement": "Negated is an involution, keeps the commodity, x plus its negation is zero, and Copy is independent of the original.", "quantifier": "all amounts", "why_tests_cant": "The domain is infinite; a table of examples samples a handful of values.", "anchors": ["amount.go:Amount.Negated", "amount.go:Amount.Copy"]}
{"id": "C08", "title": "Width equals printed length", "statement": "Width(decimals) of an amount at its commodity's decimals is exactly the length of its printed form, so padded columns line up.", "quantifier": "all amounts below 10^50", "why_tests_cant": "The domain is infinite; a table of examples samples a handful of values.", "anchors": ["amount.go:Amount.Width", "pow10.go:bigLog10"]}
{"id": "C09", "title": "Integer logarithm and powers", "statement": "log10/bigLog10 return the floor of the base 10 logarithm, pow10/bigPow10 the power of ten, on their whole supported range, and bigLog10/bigPow10 panic exactly outside of it; SetFraction(10^n) sets n decimals.", "quantifier": "all integers in range", "why_tests_cant": "The domain is infinite; a table of examples samples a handful of values.", "anchors": ["pow10.go:log10", "pow10.go:pow10", "pow10.go:bigLog10", "pow10.go:bigPow10", "commodity.go:Commodity.SetFraction"]}
{"id": "C10", "title": "Fraction amounts round down", "statement": "NewAmountFrac(num, den) is the largest representable amount not exceeding num/den for positive den.", "quantifier": "all num, den>0, decimals", "why_tests_cant": "The domain is infinite; a table of examples samples a handful of values.", "anchors": ["amount.go:NewAmountFrac"]}
{"id": "C11", "title": "Magnitude comparison", "statement": "IsBigger(a,b) holds exactly when |a| > |b| as numbers.", "quantifier": "all pairs of amounts", "why_tests_cant": "Tests compare amounts with equal decimals only.", "anchors": ["amount.go:Amount.CmpMagnitude"]}
{"id": "C12", "title": "Conversion always terminates", "statement": "Convert returns (a value or an error) for every price graph, including cyclic ones, whatever order the price map is iterated in.", "quantifier": "all finite price graphs x all map orders", "why_tests_cant": "Cyclic graphs of every size.", "anchors": ["commodity.go:Commodity.convert"]}
{"id": "C13", "title": "Conversion succeeds exactly when prices connect", "statement": "Convert from c2 to c succeeds if and only if c is reachable from c2 through a chain of known prices.", "quantifier": "all finite price graphs x all map orders", "why_tests_cant": "Reachability in arbitrary graphs.", "anchors": ["commodity.go:Commodity.convert"]}
{"id": "C14", "title": "Conversion does not depend on map order", "statement": "The converted value is the same for every iteration order of the price maps.", "quantifier": "all map orders", "why_tests_cant": "A test observes one order per run.", "anchors": ["commodity.go:Commodity.convert"]}
{"id": "C15", "title": "Converted amount is in the target commodity", "statement": "Convert(amount, c2) on c returns an amount denominated in c, correct to c's decimals.", "quantifier": "all amounts and prices", "why_tests_cant": "Existing tests use equal decimals and ignore the commodity.", "anchors": ["commodity.go:Commodity.convert", "amount.go:Amount.Times"]}
{"id": "C16", "title": "Conversion uses the most recent price", "statement": "After loading, a direct conversion uses a price with the latest date among all prices recorded for the pair, whatever order prices appeared in the files.", "quantifier": "all price histories and their permutations", "why_tests_cant": "All permutations of all histories.", "anchors": ["coin.go:ResolvePrices", "commodity.go:Commodity.AddPrice", "commodity.go:Commodity.convert"]}
{"id": "C17", "title": "Account postings stay sorted and duplicate free", "statement": "After any sequence of adding, removing and moving postings every account's posting list is sorted by date and contains no posting twice.", "quantifier": "all operation sequences", "why_tests_cant": "Unbounded histories.", "anchors": ["account.go:Account.addPosting", "account.go:Account.deletePosting", "account.go:Account.findPosting", "posting.go:Posting.MoveTo"]}
{"id": "C18", "title": "Postings behave like a set; ties keep arrival order", "statement": "Adding makes a posting present exactly once and removes nothing; deleting removes exactly that posting; postings of the same day stay in insertion order.", "quantifier": "all operation sequences", "why_tests_cant": "Unbounded histories.", "anchors": ["account.go:Account.addPosting", "account.go:Account.deletePosting"]}
{"id": "C19", "title": "Moving a posting loses nothing", "statement": "MoveTo transfers the posting from its account to the target: the total multiset of postings over all accounts is unchanged and all other postings stay where they were.", "quantifier": "all ledgers, all moves", "why_tests_cant": "Unbounded histories.", "anchors": ["posting.go:Posting.MoveTo"]}
{"id": "C20", "title": "Accounts form one tree", "statement": "After loading any set of accounts, every account other than Root has exactly one parent, namely the account whose full name is its name up to the last colon (Root for top level names), appears exactly once in that parent's children, and every account is reachable from Root.", "quantifier": "all sets of account names x all map orders", "why_tests_cant": "All name sets and all map iteration orders.", "anchors": ["coin.go:ResolveAccounts", "account.go:Account.adopt", "account.go:parentAndName"]}
{"id": "C21", "title": "Missing ancestors are created, nothing else is", "statement": "ResolveAccounts adds exactly the missing proper ancestors of the declared accounts plus Root and Unbalanced and keeps every declared account.", "quantifier": "all sets of account names x all map orders", "why_tests_cant": "As above.", "anchors": ["coin.go:ResolveAccounts"]}
{"id": "C22", "title": "Closing an account closes its subtree", "statement": "IsClosed holds exactly when the account or one of its ancestors carries a closing date.", "quantifier": "all account trees", "why_tests_cant": "Unbounded depth.", "anchors": ["account.go:Account.IsClosed"]}
{"id": "C23", "title": "Depth counts name components", "statement": "Depth of an account equals the number of colon separated components of its full name.", "quantifier": "all account trees", "why_tests_cant": "Unbounded depth.", "anchors": ["account.go:Account.Depth"]}
{"id": "C24", "title": "Ambiguous account patterns are rejected", "statement": "MustFindAccount returns an exactly named account if there is one; otherwise the only match, or the match that is an ancestor of all other matches; if matches are ambiguous it refuses.", "quantifier": "all account sets and patterns", "why_tests_cant": "Tests cover a handful of patterns.", "anchors": ["coin.go:MustFindAccount", "coin.go:FindAccounts"]}
{"id": "C25", "title": "Shortened account names", "statement": "ShortenAccountName returns the name unchanged if it fits, otherwise keeps the number of components and at least one character of each non-empty component, each component a prefix of the original, and the result length is max(size, minimal possible length).", "quantifier": "all names and sizes", "why_tests_cant": "The domain is infinite; a table of examples samples a handful of values.", "anchors": ["account.go:ShortenAccountName"]}
{"id": "C26", "title": "Accepted single-commodity transactions balance", "statement": "After ResolveTransactions succeeds every transaction whose accounts share one commodity and whose quantities are in it sums exactly to zero.", "quantifier": "all ledgers", "why_tests_cant": "All ledgers.", "anchors": ["coin.go:ResolveTransactions"]}
{"id": "C27", "title": "Unbalanced transactions are rejected", "statement": "Loading fails if and only if some single-commodity transaction without elided amount has a non-zero sum, some transaction has two elided amounts, a mixed transaction has an elided amount, an account cannot be found, or an amount cannot be converted.", "quantifier": "all ledgers", "why_tests_cant": "All ledgers.", "anchors": ["coin.go:ResolveTransactions"]}
{"id": "C28", "title": "An elided amount is the unique balancing one", "statement": "The single elided quantity is set to the value that makes the transaction sum to zero and all stated quantities are kept as written.", "quantifier": "all transactions", "why_tests_cant": "All transactions.", "anchors": ["coin.go:ResolveTransactions"]}
{"id": "C29", "title": "Running balances", "statement": "After loading, the balance recorded on each posting of a single-commodity account without assertion is the exact sum of the account's postings up to and including it, in date order, and the account balance is the sum of all of them.", "quantifier": "all ledgers", "why_tests_cant": "All ledgers.", "anchors": ["account.go:Account.CheckPostings", "coin.go:ResolveTransactions"]}
{"id": "C30", "title": "Balance assertions are checked and kept", "statement": "A warning is printed for exactly those asserted postings whose running balance differs from the assertion; asserted balances are never altered and do not influence running balances.", "quantifier": "all ledgers", "why_tests_cant": "All ledgers.", "anchors": ["account.go:Account.CheckPostings"]}
{"id": "C31", "title": "Accounting equation", "statement": "In a loaded single-commodity ledger the balances of all accounts sum to zero.", "quantifier": "all ledgers", "why_tests_cant": "Needs every ledger.", "anchors": ["coin.go:ResolveTransactions", "account.go:Account.CheckPostings"]}
{"id": "C32", "title": "Transactions end up in date order", "statement": "After loading, transactions are a permutation of the loaded ones, in date order, on each day those without balance assertion first, otherwise in input order.", "quantifier": "all transaction lists", "why_tests_cant": "The domain is infinite; a table of examples samples a handful of values.", "anchors": ["transaction.go:TransactionsByTime.Less", "coin.go:ResolveTransactions"]}
{"id": "C33", "title": "Day lookup", "statement": "Day(d) returns exactly the transactions posted on d, in order.", "quantifier": "all sorted lists and days", "why_tests_cant": "Binary search boundaries.", "anchors": ["transaction.go:TransactionsByTime.Day"]}
{"id": "C34", "title": "Begin/end filters", "statement": "The -b/-e filters of balance and register keep exactly the postings with begin <= date < end, in order; an omitted bound does not restrict.", "quantifier": "all sorted lists and date bounds", "why_tests_cant": "Binary search boundaries.", "anchors": ["cmd/coin/utils.go:trim"]}
{"id": "C35", "title": "Stats date range", "statement": "stats -b/-e considers exactly the transactions with begin <= date < end.", "quantifier": "all sorted lists and date bounds", "why_tests_cant": "Binary search boundaries.", "anchors": ["cmd/coin/stats.go:cmdStats.transactions"]}
{"id": "C36", "title": "balance totals", "statement": "Each row's own total is the exact sum of the account's selected postings (one commodity).", "quantifier": "all trees and ledgers", "why_tests_cant": "All ledgers.", "anchors": ["cmd/coin/balance.go:cmdBalance.execute"]}
{"id": "C37", "title": "balance cumulative totals", "statement": "Each row's cumulative total is the exact sum over the account and all its descendants, each counted once (one commodity).", "quantifier": "all trees and ledgers", "why_tests_cant": "All trees.", "anchors": ["cmd/coin/balance.go:cmdBalance.execute", "account.go:Account.FirstWithChildrenDo", "account.go:Account.WithChildrenDo"]}
{"id": "C38", "title": "balance row selection", "statement": "A row is printed for exactly the accounts of the subtree within the requested level whose cumulative total is non-zero (or all with -z), parents before children (one commodity).", "quantifier": "all trees, flags", "why_tests_cant": "All trees.", "anchors": ["cmd/coin/balance.go:cmdBalance.print"]}
{"id": "C39", "title": "register running totals", "statement": "The running total printed on row i is the exact sum of quantities of rows 0..i; register -r lists every selected posting of the subtree exactly once, in date order (one commodity, payee filter not inverted, see C47).", "quantifier": "all trees and ledgers", "why_tests_cant": "All ledgers.", "anchors": ["cmd/coin/register.go:cmdRegister.fullRegister", "cmd/coin/postings.go:postings.totals"]}
{"id": "C40", "title": "register does not crash on a loaded ledger", "statement": "The plain register prints every ledger that loads.", "quantifier": "all loaded ledgers", "why_tests_cant": "Tests have only two-posting transactions.", "anchors": ["cmd/coin/postings.go:postings.widths", "transaction.go:Transaction.Other"]}
{"id": "C41", "title": "Period totals", "statement": "For postings in date order the aggregated register yields one total per period, strictly increasing in time, each the exact sum of the postings falling into that period, and only for periods with postings.", "quantifier": "all posting lists, all reducers", "why_tests_cant": "The domain is infinite; a table of examples samples a handful of values.", "anchors": ["cmd/coin/totals.go:timeTotals.add"]}
{"id": "C42", "title": "Merging timelines", "statement": "merge of two strictly sorted timelines is their pointwise sum over the union of times; mergeKeys keeps all amounts and adds zero totals for missing times; both keep the timeline strictly sorted.", "quantifier": "all pairs of timelines", "why_tests_cant": "Offsets bookkeeping over all interleavings.", "anchors": ["cmd/coin/totals.go:timeTotals.mergeTotals"]}
{"id": "C43", "title": "Top n keeps the grand total", "statement": "Restricting an aggregated register to the n largest accounts conserves the sum over all columns (the rest is reported as Other).", "quantifier": "all total sets and n", "why_tests_cant": "Boundary n+1.", "anchors": ["cmd/coin/totals.go:cumulative.top"]}
{"id": "C44", "title": "Aggregated register does not crash", "statement": "The aggregated register completes for every loaded ledger.", "quantifier": "all ledgers and flags", "why_tests_cant": "Depends on magnitudes and map order.", "anchors": ["cmd/coin/register.go:cmdRegister.aggregatedRegister", "cmd/coin/totals.go:cumulative.mergeTime"]}
{"id": "C45", "title": "Columns are aligned in time", "statement": "Whenever the aggregated register completes, every column has exactly the same sequence of periods.", "quantifier": "all ledgers", "why_tests_cant": "All ledgers.", "anchors": ["cmd/coin/register.go:cmdRegister.aggregatedRegister", "cmd/coin/totals.go:cumulative.mergeTime"]}
{"id": "C46", "title": "Cumulative aggregation", "statement": "With -c every total is the sum of the period totals up to it.", "quantifier": "all timelines", "why_tests_cant": "The domain is infinite; a table of examples samples a handful of values.", "anchors": ["cmd/coin/totals.go:timeTotals.makeCumulative"]}
{"id": "C47", "title": "Inverted payee filter", "statement": "register -p '!x' selects exactly the postings whose payee does not match x, in every account of the subtree.", "quantifier": "all trees and ledgers", "why_tests_cant": "A single-account test passes.", "anchors": ["cmd/coin/register.go:cmdRegister.trim"]}
{"id": "C48", "title": "Inverted tag filter", "statement": "A '!' tag expression selects exactly the items the same expression without '!' does not select.", "quantifier": "all tag sets and expressions", "why_tests_cant": "Tests use one tag.", "anchors": ["tags.go:TagMatcher.Match"]}
{"id": "C49", "title": "modify changes every selected posting and nothing else", "statement": "modify -a X -a: Y moves every posting on X of the selected transactions to Y and leaves all other postings, quantities and dates unchanged.", "quantifier": "all transactions", "why_tests_cant": "Tests have one matching posting.", "anchors": ["cmd/coin/modify.go:cmdModify.modify"]}
{"id": "C50", "title": "modify adds the tag", "statement": "After modify -tt:/-pt: adds a tag, rereading the item yields the old tags plus the new one.", "quantifier": "all notes and tags", "why_tests_cant": "Depends on the surrounding note text.", "anchors": ["cmd/coin/modify.go:addTagLine", "tags.go:ParseTags"]}
{"id": "C51", "title": "In-place rewriting is crash safe", "statement": "At every crash point of format -i / modify the file name refers to either the complete old or the complete new content.", "quantifier": "all crash points", "why_tests_cant": "Crash points.", "anchors": ["cmd/coin/format.go:cmdFormat.execute", "cmd/coin/modify.go:cmdModify.execute"]}
{"id": "C52", "title": "In-place rewriting keeps other content", "statement": "format -i / modify keep everything in the file that is not a transaction.", "quantifier": "all files", "why_tests_cant": "The domain is infinite; a table of examples samples a handful of values.", "anchors": ["cmd/coin/format.go:cmdFormat.execute"]}
{"id": "C53", "title": "Written transactions read back", "statement": "A transaction in canonical form written with Write and parsed again yields the same date, code, description, notes, accounts, quantities and balance assertions.", "quantifier": "all canonical transactions", "why_tests_cant": "Unbounded text.", "anchors": ["transaction.go:Transaction.Write", "transaction.go:Parser.parseTransaction", "posting.go:Posting.Write"]}
{"id": "C54", "title": "Formatting is idempotent", "statement": "Formatting already formatted output changes nothing.", "quantifier": "all transactions", "why_tests_cant": "Unbounded text.", "anchors": ["transaction.go:Transaction.Write", "transaction.go:Parser.parseTransaction"]}
{"id": "C55", "title": "format only reorders", "statement": "format outputs every transaction of the file exactly once, sorted as in C32.", "quantifier": "all files", "why_tests_cant": "The domain is infinite; a table of examples samples a handful of values.", "anchors": ["cmd/coin/format.go:cmdFormat.writeTransactions", "coin.go:ResolveTransactions"]}
{"id": "C56", "title": "Full dates read back", "statement": "Every date from year 0 to 9999 printed as yyyy/mm/dd parses back to the same date, whatever today is.", "quantifier": "all dates", "why_tests_cant": "The domain is infinite; a table of examples samples a handful of values.", "anchors": ["date.go:parseDate"]}
{"id": "C57", "title": "Two digit years", "statement": "A two digit year means the year closest to the current one with those last digits.", "quantifier": "all current years, all two digit years", "why_tests_cant": "Tests spoof one year.", "anchors": ["date.go:parseDate"]}
{"id": "C58", "title": "Omitted years", "statement": "mm/dd means the occurrence of that month closest to today's month.", "quantifier": "all todays and months", "why_tests_cant": "Boundaries.", "anchors": ["date.go:parseDate"]}
{"id": "C59", "title": "Date offsets", "statement": "+-n d/w moves the date by exactly n / 7n days; +-n m/y moves by n months / 12n months with Go calendar normalisation.", "quantifier": "all dates and offsets", "why_tests_cant": "The domain is infinite; a table of examples samples a handful of values.", "anchors": ["date.go:parseDate"]}
{"id": "C60", "title": "Period reduction", "statement": "The week/month/quarter/year of a date starts on or before it, contains it, the reduction is idempotent and monotone, and two dates reduce to the same value exactly when they are in the same calendar period.", "quantifier": "all dates", "why_tests_cant": "The domain is infinite; a table of examples samples a handful of values.", "anchors": ["cmd/coin/totals.go:week", "cmd/coin/totals.go:month", "cmd/coin/totals.go:quarter", "cmd/coin/totals.go:year"]}
{"id": "C61", "title": "Parser never crashes", "statement": "Loading any text either succeeds or reports an error, it does not panic with a nil dereference.", "quantifier": "all texts", "why_tests_cant": "All inputs.", "anchors": ["parser.go:Parser.Next", "transaction.go:Parser.parseTransaction", "account.go:Parser.parseAccount"]}
{"id": "C62", "title": "An empty note line is not a posting", "statement": "A note line with empty text inside a transaction does not add a posting.", "quantifier": "all transactions", "why_tests_cant": "Rare input.", "anchors": ["transaction.go:postingREX", "transaction.go:Parser.parseTransaction"]}
{"id": "C63", "title": "A transaction ends where the next item begins", "statement": "A line that starts a new item (date, comment or include at column 0) is never consumed as a posting of the preceding transaction.", "quantifier": "all texts", "why_tests_cant": "Rare input.", "anchors": ["transaction.go:postingREX", "transaction.go:Parser.parseTransaction"]}
{"id": "C64", "title": "Tags", "statement": "ParseTags finds every #key and #key: value in the notes, the last occurrence of a key wins, values are trimmed.", "quantifier": "all notes", "why_tests_cant": "The domain is infinite; a table of examples samples a handful of values.", "anchors": ["tags.go:ParseTags"]}
{"id": "C65", "title": "Commodities, accounts and prices read back", "statement": "A commodity, account or price written with Write parses back to the same item.", "quantifier": "all items", "why_tests_cant": "The domain is infinite; a table of examples samples a handful of values.", "anchors": ["commodity.go:Commodity.Write", "commodity.go:Parser.parseCommodity", "account.go:Account.Write", "account.go:Parser.parseAccount", "price.go:Price.Write", "price.go:Parser.parsePrice"]}
{"id": "C66", "title": "Imported transactions are balanced", "statement": "Every transaction created by Post has two postings summing to zero, in accounts from and to, with the receiving posting first.", "quantifier": "all amounts and accounts", "why_tests_cant": "The domain is infinite; a table of examples samples a handful of values.", "anchors": ["transaction.go:Transaction.Post", "transaction.go:Transaction.PostConversion"]}
{"id": "C67", "title": "Duplicate detection", "statement": "The importer emits every transaction of the batch that equals no existing transaction of the same day and no earlier one of the batch, and only those.", "quantifier": "all ledgers and batches", "why_tests_cant": "The domain is infinite; a table of examples samples a handful of values.", "anchors": ["cmd/ofx2coin/main.go", "transaction.go:Transaction.IsEqual", "transaction.go:TransactionsByTime.FindEqual"]}
{"id": "C68", "title": "Merging a duplicate keeps its balance", "statement": "When a duplicate carrying a balance is dropped, the balance ends up on the transaction that is kept.", "quantifier": "all batches", "why_tests_cant": "Needs duplicates with balances.", "anchors": ["transaction.go:TransactionsByTime.FindEqual", "transaction.go:Transaction.MergeDuplicate", "cmd/ofx2coin/main.go"]}
{"id": "C69", "title": "First matching rule wins", "statement": "RuleFor returns the first rule, in depth first textual order through included rule sets, whose pattern matches the payee, and nil if none does.", "quantifier": "all rule trees and payees", "why_tests_cant": "The domain is infinite; a table of examples samples a handful of values.", "anchors": ["rules.go:AccountRules.RuleFor", "rules.go:RuleSet.RuleFor", "rules.go:Rule.RuleFor"]}
{"id": "C70", "title": "Rule lookup terminates", "statement": "RuleFor terminates for every rule file that ScanRules accepts.", "quantifier": "all rule files", "why_tests_cant": "Self referencing sets.", "anchors": ["rules.go:ScanRules", "rules.go:RuleSet.RuleFor"]}
{"id": "C71", "title": "Duplicate report", "statement": "stats -d reports exactly the pairs of equal transactions.", "quantifier": "all sorted transaction lists", "why_tests_cant": "The domain is infinite; a table of examples samples a handful of values.", "anchors": ["cmd/coin/stats.go:cmdStats.execute", "transaction.go:Transaction.IsEqual"]}
{"id": "C72", "title": "Aggregated register values", "statement": "With no account left out by -g the aggregated register has a column for exactly the accounts with selected postings in or below them and a row for exactly the periods/categories of the selected postings, in order; each cell is the exact sum of the selected postings of the account (with -r: and below) in that period/category, with -c of all up to that period (one commodity).", "quantifier": "all trees, ledgers, filters, reducers", "why_tests_cant": "All ledgers.", "anchors": ["cmd/coin/register.go:cmdRegister.aggregatedRegister", "cmd/coin/totals.go:cumulative"]}
{"id": "C73", "title": "Month and year texts", "statement": "yyyy/mm means the first day of that month and yyyy the first day of that year.", "quantifier": "all years and months", "why_tests_cant": "The domain is infinite; a table of examples samples a handful of values.", "anchors": ["date.go:parseDate"]}
{"id": "C74", "title": "Only whole dates are accepted", "statement": "Date flags accept a text only if all of it is a date with an optional offset; other texts are reported as errors.", "quantifier": "all texts", "why_tests_cant": "All inputs.", "anchors": ["date.go:DateREX", "date.go:Date.Set"]}
{"id": "C75", "title": "A rule matches by the pattern written on its line", "statement": "The rule read from an indented line with an account and a pattern has exactly that account and pattern; blanks around the pattern do not count.", "quantifier": "all accounts, patterns and blanks", "why_tests_cant": "All texts.", "anchors": ["rules.go:bodyRE", "rules.go:ScanRules"]}
{"id": "C76", "title": "Empty lines in a rule file", "statement": "An empty line in a rule file changes nothing.", "quantifier": "all rule files and positions", "why_tests_cant": "All texts.", "anchors": ["rules.go:ScanRules", "rules.go:headerRE"]}
{"id": "C77", "title": "Statement balance", "statement": "The last transaction imported from a bank statement asserts the statement's closing balance on the statement's account, and no other transaction of it asserts a balance.", "quantifier": "all statements and rules", "why_tests_cant": "The domain is infinite; a table of examples samples a handful of values.", "anchors": ["cmd/ofx2coin/main.go:readTransactions", "cmd/ofx2coin/main.go:newTransaction"]}
{"id": "C78", "title": "Dumped rules read back", "statement": "The rules of every accepted rule file can be dumped, and reading the dump gives the same rules.", "quantifier": "all rule files", "why_tests_cant": "The domain is infinite; a table of examples samples a handful of values.", "anchors": ["rules.go:RuleIndex.Write", "rules.go:writeRules", "rules.go:Rule.Write"]}
{"id": "C79", "title": "Included files are loaded in place", "statement": "Loading a file gives the same items as loading the one text in which every include line is replaced by the contents of the included files, in order.", "quantifier": "all files, contents and include graphs", "why_tests_cant": "The domain is infinite; a table of examples samples a handful of values.", "anchors": ["coin.go:Load", "coin.go:LoadFile", "include.go:Include.Files"]}
{"id": "C80", "title": "Include loops", "statement": "A file that includes itself, directly or through other files, is never loaded successfully, and otherwise loading does not depend on how many files may be open, as long as it is enough.", "quantifier": "all include graphs and limits", "why_tests_cant": "The domain is infinite; a table of examples samples a handful of values.", "anchors": ["coin.go:LoadFile", "include.go:Include.Files"]}
{"id": "C81", "title": "Every ledger file is loaded once", "statement": "Loading the ledger directory reads every .coin file in it exactly once.", "quantifier": "all directories", "why_tests_cant": "Depends on which files exist.", "anchors": ["coin.go:LoadAll", "coin.go:LoadPrices"]}
{"id": "C82", "title": "Account patterns", "statement": "A pattern a:b:c of words finds exactly the accounts with components containing a, b, c in this order, ^ and $ anchoring the first to the beginning and the last to the end of the name.", "quantifier": "all patterns of words and all account names", "why_tests_cant": "The domain is infinite; a table of examples samples a handful of values.", "anchors": ["coin.go:ToRegex", "coin.go:FindAccounts"]}
{"id": "C83", "title": "Layout of written transactions", "statement": "The amounts of a written transaction end in one column, and the first note of a transaction or posting is on its line exactly when the line stays below 80 bytes.", "quantifier": "all transactions", "why_tests_cant": "The domain is infinite; a table of examples samples a handful of values.", "anchors": ["transaction.go:Transaction.Write", "posting.go:Posting.Write", "amount.go:Amount.Width"]}
{"id": "C84", "title": "Weekly dates of a sample", "statement": "weekly(count, interval, days) generates, in order and each once, dates on the given weekdays of every interval-th week between begin and end inclusive: count of them in every full week, and all of them if there are no more than count.", "quantifier": "all ranges, intervals, counts, days and random draws", "why_tests_cant": "The domain is infinite; a table of examples samples a handful of values.", "anchors": ["cmd/gen2coin/dates.go:weekly"]}
{"id": "C85", "title": "Monthly dates of a sample", "statement": "monthly(count, interval, days) generates, in order, dates on the given days of the month (counted from the end if negative) of every interval-th month between begin and end inclusive: count in every full month, all of them if there are no more than count.", "quantifier": "all ranges, intervals, counts, days and random draws", "why_tests_cant": "The domain is infinite; a table of examples samples a handful of values.", "anchors": ["cmd/gen2coin/dates.go:monthly"]}
{"id": "C86", "title": "Splitting a ledger into files", "statement": "Splitting by year, by month or not at all puts every transaction into exactly one file, that of its period, keeping the order.", "quantifier": "all sorted ledgers", "why_tests_cant": "The domain is infinite; a table of examples samples a handful of values.", "anchors": ["cmd/gen2coin/main.go:batchesByLabel", "cmd/gen2coin/main.go:main"]}
{"id": "C87", "title": "Balances on generated postings", "statement": "With -wb every generated posting carries the running balance of its account.", "quantifier": "all rules and random draws", "why_tests_cant": "The balances were already accumulated while generating.", "anchors": ["cmd/gen2coin/main.go:main", "cmd/gen2coin/rule.go:rule.generatePostings", "account.go:Account.CheckPostings"]}
{"id": "C88", "title": "Generated amounts", "statement": "Random amounts are whole units within the bounds of the rule, repaying a balance makes it zero, and paying a fraction of a balance is exact up to rounding.", "quantifier": "all rules, balances and random draws", "why_tests_cant": "The domain is infinite; a table of examples samples a handful of values.", "anchors": ["cmd/gen2coin/rule.go:amtBetween", "cmd/gen2coin/rule.go:amtFromBalance", "cmd/gen2coin/rule.go:rule.generatePostings", "cmd/gen2coin/rule.go:pow"]}
{"id": "C89", "title": "Tag categories", "statement": "Postings are put into the same tag category exactly if every tag key has the same value for both, a posting's own tags overriding those of its transaction, independently of the order in which the tags are written.", "quantifier": "all tags of transactions and postings, all map orders", "why_tests_cant": "The domain is infinite; a table of examples samples a handful of values.", "anchors": ["cmd/coin/totals.go", "tags.go:Tags.KeysAndValues"]}
{"id": "C90", "title": "tags command", "statement": "The tags command lists every selected key in use once, in increasing order, with its distinct values in increasing order and its accounts in order of first use, independently of map iteration order.", "quantifier": "all ledgers, patterns and map orders", "why_tests_cant": "Go randomizes map iteration.", "anchors": ["cmd/coin/tags.go:cmdTags.execute"]}
{"id": "C91", "title": "What ofx2coin writes reads back", "statement": "Loading what the import of a statement writes gives its transactions with the dates, payees, notes, accounts, amounts and balance that were imported.", "quantifier": "all statements", "why_tests_cant": "The domain is infinite; a table of examples samples a handful of values.", "anchors": ["cmd/ofx2coin/main.go:main", "cmd/ofx2coin/main.go:newTransaction", "transaction.go:Transaction.Write"]}
{"id": "C92", "title": "Filled in test results read back", "statement": "After coin test wrote the missing results of the tests of a file, loading the file gives the same items, each test that had no result now having the output of its command as result.", "quantifier": "all test files and outputs", "why_tests_cant": "The domain is infinite; a table of examples samples a handful of values.", "anchors": ["cmd/coin/test.go:updateTestFile", "cmd/coin/test.go:cmdTest.execute", "test.go:Parser.parseTest"]}
{"id": "C93", "title": "Missing results go below their tests", "statement": "coin test writes the output of each test that has no result directly below the first line of that test and changes nothing else in any file.", "quantifier": "all ledgers of any number of files", "why_tests_cant": "The domain is infinite; a table of examples samples a handful of values.", "anchors": ["cmd/coin/test.go:updateTestFile", "cmd/coin/test.go:cmdTest.execute"]}
{"id": "C94", "title": "Test verdicts", "statement": "coin test reports exactly the tests whose result differs from the output, and for every file OK exactly if none of its tests fails; with -v exactly one line per test with a result.", "quantifier": "all test files and outputs", "why_tests_cant": "The domain is infinite; a table of examples samples a handful of values.", "anchors": ["cmd/coin/test.go:cmdTest.execute"]}
{"id": "C95", "title": "Values of a csv record", "statement": "The value of a csv source field is the first non-empty one of its rules; an extraction rule gives the record's field, or the template with $0..$9 replaced by the subgroups of the match (empty if there is none); a derivation rule gives the template with ${name} replaced by the value of that name, or empty if its condition is not met. Other text of a template is kept.", "quantifier": "all sources, templates, records and expressions", "why_tests_cant": "The domain is infinite; a table of examples samples a handful of values.", "anchors": ["cmd/csv2coin/rules.go:Field.Value", "cmd/csv2coin/rules.go:Field.derivedField", "cmd/csv2coin/rules.go:Field.directField"]}
{"id": "C96", "title": "Derived values end", "statement": "Evaluating a value of any csv source on any record ends.", "quantifier": "all sources and records", "why_tests_cant": "Depends on the references between values.", "anchors": ["cmd/csv2coin/rules.go:Field.derivedField", "cmd/csv2coin/rules.go:Fields.Value"]}
{"id": "C97", "title": "Csv transactions balance", "statement": "Every transaction made from a csv record balances: its postings move the record's amount, or exchange the traded quantity for it, between the account and the account of the rules.", "quantifier": "all records, rules and ledgers", "why_tests_cant": "The domain is infinite; a table of examples samples a handful of values.", "anchors": ["cmd/csv2coin/main.go:transactionFrom"]}
{"id": "C98", "title": "Accounts of csv transactions", "statement": "A posting of a csv transaction is in the account the rules name if that account is in the posting's commodity, else in the first account below it that is (children before their parents), else in Unbalanced.", "quantifier": "all account trees and commodities", "why_tests_cant": "The domain is infinite; a table of examples samples a handful of values.", "anchors": ["cmd/csv2coin/main.go:findAccountForCommodity", "cmd/csv2coin/main.go:transactionFrom"]}
{"id": "C99", "title": "Every csv record is imported", "statement": "Of every csv file exactly the records after the skipped lines become transactions, except those dropped by a rule, with their dates, in order of time.", "quantifier": "all files, header lengths and record widths", "why_tests_cant": "The domain is infinite; a table of examples samples a handful of values.", "anchors": ["cmd/csv2coin/main.go:readTransactions", "cmd/csv2coin/main.go:main"]}
{"id": "C100", "title": "csv.rules is read as written", "statement": "Every csv.rules file as documented, either section being optional, is read as the sources and rules written in it; the dump of the rules is such a file; -fields maps the listed indexes.", "quantifier": "all sources, mappings, templates, expressions and rules", "why_tests_cant": "The domain is infinite; a table of examples samples a handful of values.", "anchors": ["cmd/csv2coin/rules.go:ScanSource", "cmd/csv2coin/rules.go:ReadRules", "cmd/csv2coin/rules.go:Rules.Write", "cmd/csv2coin/main.go:parseFields"]}
{"id": "C101", "title": "What csv2coin writes reads back", "statement": "Loading what csv2coin writes gives the transactions with the dates, descriptions, notes, accounts and amounts that were imported.", "quantifier": "all files and sources", "why_tests_cant": "The domain is infinite; a table of examples samples a handful of values.", "anchors": ["cmd/csv2coin/main.go:main", "transaction.go:Transaction.Write"]}
{"id": "C102", "title": "OFX headers of BMO files are repaired", "statement": "Reading a downloaded OFX file gives its text with the blank line missing before the first <OFX> line inserted, and nothing else changed, whatever buffer sizes the reader is asked for.", "quantifier": "all texts and all sequences of buffer sizes", "why_tests_cant": "The domain is infinite; a table of examples samples a handful of values.", "anchors": ["cmd/ofx2coin/bmo.go:bmoReader"]}
{"id": "C103", "title": "The accounts command lists the open accounts", "statement": "The accounts command lists, in increasing order of names and each once, exactly the accounts the pattern selects that are not closed (all selected ones with -c), in aligned columns.", "quantifier": "all sets of declared accounts, patterns, flags and map iteration orders", "why_tests_cant": "The domain is infinite; a table of examples samples a handful of values.", "anchors": ["cmd/coin/accounts.go:cmdAccounts.execute", "coin.go:AccountsDo", "account.go:Account.IsClosed"]}
{"id": "C104", "title": "The commodities command lists commodities and prices", "statement": "The commodities command lists every commodity once in increasing order of id, and with -p every price of the commodities once, latest first, independently of map iteration order.", "quantifier": "all commodities, prices and map iteration orders", "why_tests_cant": "The domain is infinite; a table of examples samples a handful of values.", "anchors": ["cmd/coin/commodities.go:cmdCommodities.execute", "coin.go:CommoditiesDo"]}
{"id": "C105", "title": "gc2coin converts the tree of accounts", "statement": "Every account of a GnuCash book becomes one coin account: its full name is the chain of names from the top, without the root and without blanks, joined by colons, whatever order the map of accounts is iterated in; two accounts get two names; commodity, description and the OFX ids from online_id are kept; the conversion stops only on unknown parents or ids.", "quantifier": "all books with distinct GUIDs, tree shapes, names and map iteration orders", "why_tests_cant": "The domain is infinite; a table of examples samples a handful of values.", "anchors": ["gnucash/account.go:resolveAccounts,buildFullName,AccountFrom"]}
{"id": "C106", "title": "gc2coin keeps amounts", "statement": "A fraction n/d of a GnuCash book becomes an amount of the same value in the commodity's decimals, a balanced transaction stays balanced, and texts that are not fractions stop the conversion.", "quantifier": "all fractions, signs and numbers of decimals", "why_tests_cant": "The domain is infinite; a table of examples samples a handful of values.", "anchors": ["gnucash/gnucash.go:mustParseAmount", "gnucash/commodity.go:CommodityFrom"]}
{"id": "C107", "title": "gc2coin -y splits a book by year", "statement": "With -y the prices and the transactions of each year are written to a file named after the year, each once and in order of time, next to the commodities and the accounts, and no other file changes; without -y four files get everything.", "quantifier": "all books, years and directories", "why_tests_cant": "The domain is infinite; a table of examples samples a handful of values.", "anchors": ["cmd/gc2coin/main.go:main,next"]}
{"id": "C108", "title": "gc2coin keeps transactions", "statement": "Every transaction of a GnuCash book is written once, in order of time, under the day of its own date text, with number, description, the part after the first ' - ' as note, and a posting for each split in order, to the split's account with its quantity and memo; unknown accounts and unreadable dates stop the conversion; balances do not depend on the order of postings of one instant.", "quantifier": "all transactions, date texts, descriptions and splits", "why_tests_cant": "The domain is infinite; a table of examples samples a handful of values.", "anchors": ["gnucash/transaction.go:resolveTransactions", "gnucash/split.go:resolveSplits", "gnucash/gnucash.go:mustParseTimeStamp"]}
{"id": "C109", "title": "coin loads what gc2coin writes", "statement": "A book that gc2coin writes to COINDB, with or without -y, is loaded by coin from that directory: the same commodities, prices, accounts and transactions in the same order.", "quantifier": "all books, directories and listings of files", "why_tests_cant": "The domain is infinite; a table of examples samples a handful of values.", "anchors": ["cmd/gc2coin/main.go:main", "coin.go:LoadAll,LoadPrices"]}
{"id": "C110", "title": "The page keeps amounts", "statement": "Every amount that coin2html writes is read by the page as the same amount of the same commodity.", "quantifier": "all amounts, numbers of decimals and commodities", "why_tests_cant": "The domain is infinite; a table of examples samples a handful of values.", "anchors": ["amount.go:Amount.MarshalJSON", "cmd/coin2html/js/src/commodity.ts:Amount.parse"]}
{"id": "C111", "title": "The page prints amounts", "statement": "An amount is printed without separators as it was given, with separators it differs only by commas cutting the integer digits into groups of three, and what is displayed can be read back.", "quantifier": "all amounts and numbers of decimals", "why_tests_cant": "The domain is infinite; a table of examples samples a handful of values.", "anchors": ["cmd/coin2html/js/src/commodity.ts:Amount.toString", "cmd/coin2html/js/src/commodity.ts:Amount.parse"]}
{"id": "C112", "title": "The page converts by a price", "statement": "Converting an amount by a price gives amount times price rounded to the smallest unit of the price's commodity, within one unit of what coin reports.", "quantifier": "all amounts, prices and numbers of decimals", "why_tests_cant": "The domain is infinite; a table of examples samples a handful of values.", "anchors": ["cmd/coin2html/js/src/commodity.ts:Amount.convertTo", "amount.go:Amount.Times"]}
{"id": "C113", "title": "The page picks a price of the date", "statement": "For any known prices and any date one of the prices is used, never failing; later dates get later prices; the price used is close to the date, and on the day of a price it is that price.", "quantifier": "all sequences of prices and dates", "why_tests_cant": "The domain is infinite; a table of examples samples a handful of values.", "anchors": ["cmd/coin2html/js/src/commodity.ts:newConversion"]}
{"id": "C114", "title": "The page finds chains of prices", "statement": "A search for a conversion ends, finds a chain of as few prices as possible exactly when prices, used both ways, connect the two commodities, and its answer does not depend on what was converted before.", "quantifier": "all prices, commodities and histories of earlier conversions", "why_tests_cant": "The domain is infinite; a table of examples samples a handful of values.", "anchors": ["cmd/coin2html/js/src/commodity.ts:Commodity.findConversion", "cmd/coin2html/js/src/commodity.ts:Commodity.conversions", "cmd/coin2html/js/src/commodity.ts:Commodity.convert", "cmd/coin2html/js/src/commodity.ts:composeConversions", "cmd/coin2html/js/src/commodity.ts:loadPrices"]}
{"id": "C115", "title": "Conversions over chains are exact to a unit", "statement": "Converting over two prices gives the product of amount and prices up to one smallest unit of the result.", "quantifier": "all amounts and pairs of prices", "why_tests_cant": "The domain is infinite; a table of examples samples a handful of values.", "anchors": ["cmd/coin2html/js/src/commodity.ts:composeConversions", "cmd/coin2html/js/src/commodity.ts:Amount.convertTo"]}
{"id": "C116", "title": "The data in the page survives as text", "statement": "Every value coin2html writes into the page (descriptions, notes, tags, names with any characters) is read back by the page unchanged, and the written text contains no '<', '>' or '&' and no control characters but newline and tab, so no ledger text can end the script element or be altered by the browser.", "quantifier": "all values (texts with any characters, any nesting)", "why_tests_cant": "The domain is infinite; a table of examples samples a handful of values.", "anchors": ["cmd/coin2html/main.go:main", "cmd/coin2html/js/src/commodity.ts:loadCommodities", "cmd/coin2html/js/src/account.ts:loadAccounts"]}
{"id": "C117", "title": "The page has the ledger's accounts", "statement": "The page generated by coin2html has exactly the accounts of the ledger (other than the invisible Root), in the order of their full names, each with its name, commodity, closing day and parent.", "quantifier": "all loaded ledgers, any iteration order of the account map", "why_tests_cant": "The domain is infinite; a table of examples samples a handful of values.", "anchors": ["cmd/coin2html/js/src/account.ts:loadAccounts", "account.go:MarshalJSON", "coin.go:ResolveAccounts"]}
{"id": "C118", "title": "The page has the whole ledger", "statement": "For every loaded ledger coin2html's page loads, and holds the same commodities, the same prices each followed by its reverse, the same accounts, and the same transactions in the same order with the same dates, texts, quantities, balances, notes and tags; its initial date range runs from a first of January to a 31st of December and contains every transaction.", "quantifier": "all loaded ledgers", "why_tests_cant": "The domain is infinite; a table of examples samples a handful of values.", "anchors": ["cmd/coin2html/main.go:main", "cmd/coin2html/js/src/ui.ts:initializeUI", "cmd/coin2html/js/src/account.ts:loadTransactions", "cmd/coin2html/js/src/commodity.ts:loadPrices", "transaction.go:MarshalJSON", "posting.go:MarshalJSON", "price.go:MarshalJSON", "commodity.go:MarshalJSON"]}
{"id": "C119", "title": "Dates on the page", "statement": "Whatever the time zone of the browser, the page shows a date of the ledger as that day, and a range of days entered by the user keeps exactly the postings from the first to the last day.", "quantifier": "all zone offsets, dates, ranges and posting lists", "why_tests_cant": "The domain is infinite; a table of examples samples a handful of values.", "anchors": ["cmd/coin2html/js/src/utils.ts:dateToString,trimToDateRange", "cmd/coin2html/js/src/ui.ts:initializeUI"]}
{"id": "C120", "title": "Register of an account", "statement": "The page's register of an account lists exactly the postings of the account dated in the range, in order, each with its date, description, other account, quantity and balance, and with the sum of all quantities listed so far; it is shown whenever every posting has one on the other side.", "quantifier": "all accounts, ranges and loaded transactions", "why_tests_cant": "The domain is infinite; a table of examples samples a handful of values.", "anchors": ["cmd/coin2html/js/src/viewsRegister.ts:viewRegisterFull,renderPostings"]}
{"id": "C121", "title": "The account on the other side", "statement": "In a loaded ledger every posting has a posting on the other side in its transaction (the first other posting of another sign), so that every register can be shown.", "quantifier": "all loaded ledgers, all postings", "why_tests_cant": "The domain is infinite; a table of examples samples a handful of values.", "anchors": ["cmd/coin2html/js/src/account.ts:Transaction.other"]}
{"id": "C122", "title": "Balances on the page", "statement": "At the end of a day the page's balance of an account is the sum of the quantities of its postings up to that day, when all asserted balances were found to be right.", "quantifier": "all loaded ledgers, accounts and days", "why_tests_cant": "The domain is infinite; a table of examples samples a handful of values.", "anchors": ["cmd/coin2html/js/src/account.ts:Account.balanceAt", "check.go", "transaction.go:Transactions.Less"]}
{"id": "C123", "title": "Lists of subaccounts", "statement": "The page's list of subaccounts of an account has every account whose full name extends it exactly once, after its parent, except those that are closed by the end of the range (unless closed accounts are shown) or excluded and all accounts below such ones.", "quantifier": "all loaded trees of accounts, all accounts, dates and settings", "why_tests_cant": "The domain is infinite; a table of examples samples a handful of values.", "anchors": ["cmd/coin2html/js/src/account.ts:Account.allChildren"]}
{"id": "C124", "title": "Totals of balances on the page", "statement": "For an account and each account below it that is neither closed (itself or through an account above) nor excluded, the page has the balance at the date and as total the sum of the balances of the account and of all accounts listed below it.", "quantifier": "all loaded trees, transactions, dates", "why_tests_cant": "The domain is infinite; a table of examples samples a handful of values.", "anchors": ["cmd/coin2html/js/src/account.ts:Account.withAllChildBalances,isClosed"]}
{"id": "C125", "title": "Table of balances", "statement": "The table of balances has a row for the selected account and for each open account at most the chosen number of levels below it, and no other; a row's total includes the accounts that are too deep to be shown.", "quantifier": "all loaded trees, transactions, depths, dates", "why_tests_cant": "The domain is infinite; a table of examples samples a handful of values.", "anchors": ["cmd/coin2html/js/src/viewsBalances.ts:viewBalances", "cmd/coin2html/js/src/account.ts:Account.depthFrom"]}
{"id": "C126", "title": "Register with subaccounts", "statement": "The register with subaccounts lists all postings of the account and of the open accounts below it dated in the range, each once, in order of date, with the running sum of the quantities.", "quantifier": "all loaded trees, transactions, ranges", "why_tests_cant": "The domain is infinite; a table of examples samples a handful of values.", "anchors": ["cmd/coin2html/js/src/account.ts:Account.withAllChildPostings", "cmd/coin2html/js/src/viewsRegister.ts:viewRegisterFullWithSubAccounts,renderPostingsWithSubAccounts"]}
{"id": "C127", "title": "Path of an account", "statement": "The path shown for an account has exactly the accounts above it, from the top level down to itself, each the parent of the next.", "quantifier": "all loaded trees and accounts", "why_tests_cant": "The domain is infinite; a table of examples samples a handful of values.", "anchors": ["cmd/coin2html/js/src/account.ts:Account.withAllParents,getRootAccount"]}
{"id": "C128", "title": "Every account can be viewed", "statement": "The page of a loaded ledger opens, and every account of the ledger can be selected and viewed.", "quantifier": "all loaded trees and accounts", "why_tests_cant": "The domain is infinite; a table of examples samples a handful of values.", "anchors": ["cmd/coin2html/js/src/views.ts:Views,updateView", "cmd/coin2html/js/src/ui.ts:initializeUI"]}
{"id": "C129", "title": "Aggregated register", "statement": "The page's register aggregated by weeks, months, quarters or years has one row for each period starting between the two dates, in order, with the sum of the quantities of the account's postings of the period (those whose last period start on or before their day is the row's) and with the sum of all rows so far; no posting is in two rows.", "quantifier": "all loaded transactions, accounts, periods and ranges", "why_tests_cant": "The domain is infinite; a table of examples samples a handful of values.", "anchors": ["cmd/coin2html/js/src/utils.ts:groupBy", "cmd/coin2html/js/src/viewsRegister.ts:viewRegisterAggregated", "cmd/coin2html/js/src/views.ts:Aggregation"]}
{"id": "C130", "title": "Aggregated registers are complete", "statement": "The amounts of the rows of the aggregated register add up to the quantities of the account's postings between the two dates.", "quantifier": "all loaded transactions, accounts, periods and ranges", "why_tests_cant": "The domain is infinite; a table of examples samples a handful of values.", "anchors": ["cmd/coin2html/js/src/utils.ts:groupBy", "cmd/coin2html/js/src/viewsRegister.ts:viewRegisterAggregated"]}
{"id": "C131", "title": "Aggregated balances", "statement": "With style Balances a row of the aggregated register shows the balance of the account at the end of the row's period.", "quantifier": "all loaded transactions, accounts, periods and ranges", "why_tests_cant": "The domain is infinite; a table of examples samples a handful of values.", "anchors": ["cmd/coin2html/js/src/utils.ts:groupBy,balanceOrSum", "cmd/coin2html/js/src/viewsRegister.ts:viewRegisterAggregated"]}
{"id": "C132", "title": "Columns of subaccounts", "statement": "The aggregated register with subaccounts has a column for each account of the subtree with postings, largest first, at most the chosen number, the last standing for all the others, and in every row the cells add up to all the postings of the subtree of that period.", "quantifier": "all loaded trees, transactions, periods, ranges and numbers of columns", "why_tests_cant": "The domain is infinite; a table of examples samples a handful of values.", "anchors": ["cmd/coin2html/js/src/utils.ts:groupByWithSubAccounts,sumAll", "cmd/coin2html/js/src/account.ts:Account.withAllChildPostingGroups"]}
{"id": "C133", "title": "Totals of the register with subaccounts", "statement": "In the aggregated register with subaccounts a row's total is the sum of its cells and, for flows, of all postings of the subtree in its period, and its cumulative total is the sum of the totals so far.", "quantifier": "all loaded trees, transactions, periods, ranges and numbers of columns", "why_tests_cant": "The domain is infinite; a table of examples samples a handful of values.", "anchors": ["cmd/coin2html/js/src/viewsRegister.ts:viewRegisterAggregatedWithSubAccounts"]}
{"id": "C134", "title": "Details of a group", "statement": "The details of a group show its largest postings, largest first: no posting left out is larger than one shown, and all are shown when there are few.", "quantifier": "all groups of postings, commodities and prices", "why_tests_cant": "The domain is infinite; a table of examples samples a handful of values.", "anchors": ["cmd/coin2html/js/src/utils.ts:topN"]}
{"id": "C135", "title": "Bars of the chart", "statement": "In the register chart the bars of a period lie end to end without overlap in the order of the columns, each as long as the whole part of its amount.", "quantifier": "all columns, periods and amounts", "why_tests_cant": "The domain is infinite; a table of examples samples a handful of values.", "anchors": ["cmd/coin2html/js/src/viewsAggregatedRegisterChart.ts:widthFromGroup"]}
{"id": "C136", "title": "The period chosen for a range", "statement": "When the dates change while a register is aggregated the page chooses a period so that there are at most 26 rows for ranges below five years, and longer ranges are never cut finer.", "quantifier": "all ranges", "why_tests_cant": "The domain is infinite; a table of examples samples a handful of values.", "anchors": ["cmd/coin2html/js/src/views.ts:updateAggregationForTimeRange"]}
{"id": "C137", "title": "Balance output", "statement": "The balance command prints one line per account of its report, in order: own total, cumulative total, commodity and full name, the amounts right adjusted in columns of the same width on all lines, the commodity left adjusted.", "quantifier": "all ledgers, filters and options", "why_tests_cant": "The domain is infinite; a table of examples samples a handful of values.", "anchors": ["cmd/coin/balance.go:cmdBalance.print,maxWidth,curWidth", "amount.go:Amount.Format,Amount.Width"]}
{"id": "C138", "title": "Register output", "statement": "The register command prints the account, then one line per selected posting with its date, description, accounts, amount, running total, commodity and whether a balance was asserted, followed by its notes when asked for; the columns have the same widths on all lines.", "quantifier": "all ledgers, filters and options", "why_tests_cant": "The domain is infinite; a table of examples samples a handful of values.", "anchors": ["cmd/coin/postings.go:postings.print,printLong,widths,printNotes", "cmd/coin/register.go:cmdRegister.execute,fullRegister"]}
{"id": "C139", "title": "Table of the aggregated register", "statement": "The aggregated register prints the labels of the columns and one line per period and category with all amounts, and every column has the same width on all lines.", "quantifier": "all ledgers, filters, periods, categories and options", "why_tests_cant": "The domain is infinite; a table of examples samples a handful of values.", "anchors": ["cmd/coin/totals.go:cumulative.print,widths,maxWidth,maxPeriodWidth,maxCategoryWidth"]}
{"id": "C140", "title": "CSV output reads back", "statement": "What register writes with -o csv reads back, whatever is in descriptions and names, as a header and one record per period and category with its date, its category and the exact amounts of the columns.", "quantifier": "all ledgers, filters, periods, categories, columns and strings", "why_tests_cant": "The domain is infinite; a table of examples samples a handful of values.", "anchors": ["cmd/coin/totals.go:cumulative.rows,rows.writeCSV"]}
{"id": "C141", "title": "JSON output reads back", "statement": "What register writes with -o json is one JSON array per line that reads back, whatever is in descriptions and names, as the same header and records.", "quantifier": "all ledgers, filters, periods, categories, columns and strings", "why_tests_cant": "The domain is infinite; a table of examples samples a handful of values.", "anchors": ["cmd/coin/totals.go:cumulative.rows,rows.writeJSON"]}
{"id": "C142", "title": "Prices in the other direction", "statement": "For every price of a commodity the page also knows the price of its currency: of the same date and the reciprocal value, to within a smallest unit.", "quantifier": "all non-zero prices", "why_tests_cant": "The domain is infinite; a table of examples samples a handful of values.", "anchors": ["cmd/coin2html/js/src/commodity.ts:Price.reverse,Amount.reciprocal"]}
{"id": "C143", "title": "There and back", "statement": "On the page, converting an amount by a price and back by the price in the other direction gives the amount again to within a smallest unit.", "quantifier": "all amounts and prices", "why_tests_cant": "The domain is infinite; a table of examples samples a handful of values.", "anchors": ["cmd/coin2html/js/src/commodity.ts:Amount.convertTo,Price.reverse,Amount.reciprocal"]}
{"id": "C144", "title": "Names in the register", "statement": "When names are not shortened, different accounts are shown under different names in a register.", "quantifier": "all accounts", "why_tests_cant": "The domain is infinite; a table of examples samples a handful of values.", "anchors": ["cmd/coin/postings.go:postings.print,printLong", "cmd/coin/register.go:cmdRegister.fullRegister"]}
{"id": "C145", "title": "Balances over several commodities", "statement": "Whenever balance prints something, whatever commodities the postings are in: an account's own total is the sum of what its selected postings are worth in the account's commodity, its cumulative total is its own total plus what the cumulative totals of the accounts directly below it are worth in that commodity, and with direct prices the error is at most one smallest unit per converted amount.", "quantifier": "all ledgers, prices, filters, accounts and levels", "why_tests_cant": "The domain is infinite; a table of examples samples a handful of values.", "anchors": ["cmd/coin/balance.go:cmdBalance.execute", "cmd/coin/totals.go", "amount.go:Amount.AddIn", "price.go"]}
{"id": "C146", "title": "Registers over several commodities", "statement": "Whenever register prints something, whatever commodities the postings are in, the running total of a row is the sum of what the postings up to it are worth in the commodity of the account.", "quantifier": "all ledgers, prices, filters and accounts", "why_tests_cant": "The domain is infinite; a table of examples samples a handful of values.", "anchors": ["cmd/coin/register.go:cmdRegister.fullRegister", "cmd/coin/postings.go", "amount.go:Amount.AddIn"]}
{"id": "C147", "title": "What is loaded survives being written", "statement": "Whatever text was loaded, provided no commodity is declared twice in it: writing what was loaded with the program's own output of transactions, accounts, prices and commodities and reading that again gives the same transactions, accounts, prices and commodities (but for the symbol of a commodity, which is not written). For transactions: those of the years 100 to 9999 with at least one posting, whose description and notes do not end in a carriage return, with notes only under a description and not indented further than the program indents them, and whose amounts have at most 50 decimals and fit 64 bits when written out.", "quantifier": "all source texts that load", "why_tests_cant": "The domain is infinite; a table of examples samples a handful of values.", "anchors": ["transaction.go:Transaction.Write", "account.go:Account.Write", "price.go:Price.Write", "commodity.go:Commodity.Write", "parser.go", "amount.go:parseAmount"]}
{"id": "C148", "title": "What format writes is accepted again and final", "statement": "The output of format is accepted by format again, and formatting it again changes nothing, whatever the file looked like at first.", "quantifier": "all ledger files format accepts", "why_tests_cant": "The domain is infinite; a table of examples samples a handful of values.", "anchors": ["cmd/coin/format.go", "transaction.go:Transaction.Write", "parser.go", "amount.go:parseAmount"]}
{"id": "C149", "title": "The page over several commodities", "statement": "Whatever commodities the postings and accounts are in, whenever a view of the page is shown: the totals of the register and of the register with subaccounts are the sums of what the postings so far are worth in the commodity of the account, those of the aggregated registers the sums of what the postings of the period, or the columns, are worth at the start of the period, and the total of an account in the table of balances is its balance and what the totals of the accounts directly below it are worth. With a price between the two commodities an amount is worth the amount times that price, rounded half up.", "quantifier": "all postings, prices, accounts, dates and aggregations", "why_tests_cant": "The domain is infinite; a table of examples samples a handful of values.", "anchors": ["cmd/coin2html/js/src/commodity.ts:convert,addIn", "cmd/coin2html/js/src/account.ts:withAllChildBalances", "cmd/coin2html/js/src/utils.ts:groupBy,groupByWithSubAccounts", "cmd/coin2html/js/src/viewsRegister.ts"]}
{"id": "C150", "title": "Every file of a ledger that loads can be formatted", "statement": "A file that coin loads and whose transactions resolve can be rewritten by format and modify, whatever else it declares; several files given to one run are each rewritten as if they were the only one.", "quantifier": "all ledger files and sequences of files in one run", "why_tests_cant": "The domain is infinite; a table of examples samples a handful of values.", "anchors": ["cmd/coin/format.go:execute", "cmd/coin/modify.go:execute", "coin.go:Load", "coin.go:ResolveAccounts", "coin.go:ResolveTransactions", "transaction.go:Transaction.Write"]}
{"id": "C151", "title": "Long lines of a ledger", "statement": "A ledger that loads has been read whole: a file with a line too long for the reader is refused, and never cut short or skipped, wherever the line is and whatever it contains.", "quantifier": "all ledgers, all lengths and positions of lines", "why_tests_cant": "The domain is infinite; a table of examples samples a handful of values.", "anchors": ["parser.go:Parser.Scan", "parser.go:Next", "coin.go:Load", "transaction.go:parseTransaction", "price.go:parsePrice", "include.go:parseInclude"]}
{"id": "C152", "title": "Long lines of rule files", "statement": "Rules that are accepted have been read whole: a rule file with a line too long for the reader is refused.", "quantifier": "all rule files, all lengths and positions of lines", "why_tests_cant": "The domain is infinite; a table of examples samples a handful of values.", "anchors": ["rules.go:ReadRules", "rules.go:ScanRules", "cmd/csv2coin/rules.go:ReadRules"]}
{"id": "C153", "title": "Flags in any spelling and order", "statement": "A command line is accepted exactly when it consists of settings of the command's flags, each written with one or two dashes, as -x=v, as -x v or, for a switch, as -x, with a value the flag accepts, followed by the arguments, with or without -- between; which of the command's names, spellings and orders is used makes no difference to the report, and of several settings of a flag the last counts.", "quantifier": "all argument lists, all commands", "why_tests_cant": "The domain is infinite; a table of examples samples a handful of values.", "anchors": ["cmd/coin/main.go:main,newCommand", "cmd/coin/balance.go:newCommand", "cmd/coin/register.go:newCommand,period,category"]}
{"id": "C154", "title": "Flags behind the account", "statement": "Flags count whether they are given before or behind the account.", "quantifier": "all argument lists", "why_tests_cant": "The domain is infinite; a table of examples samples a handful of values.", "anchors": ["cmd/coin/main.go:main", "cmd/coin/balance.go:execute", "cmd/coin/register.go:init"]}
{"id": "C155", "title": "The command may be left out", "statement": "Without a command balance is run, with the flags and account given.", "quantifier": "all argument lists", "why_tests_cant": "The domain is infinite; a table of examples samples a handful of values.", "anchors": ["cmd/coin/main.go:main"]}
{"id": "C156", "title": "From the files to the balance report", "statement": "For a ledger of one commodity, what balance prints is determined by the files: each account's own total is the sum of the amounts the files state or leave out (then what balances the transaction) for postings whose account name means that account and that pass the filters; the cumulative total adds those of all accounts below; one aligned line for each account at or below the account asked for within the level, with a nonzero cumulative total or under -z, parents first; and it is printed whenever the ledger opens, the account is found, the filters are valid and no total exceeds 50 digits.", "quantifier": "all directories of ledger files that load, all arguments of the balance command, all enumeration orders of maps and outcomes of sort", "why_tests_cant": "The domain is infinite; a table of examples samples a handful of values.", "anchors": ["coin.go:LoadAll,ResolveAll,ResolvePrices,ResolveAccounts,ResolveTransactions", "cmd/coin/main.go:main", "cmd/coin/balance.go:execute,print"]}
{"id": "C157", "title": "From the files to the register", "statement": "Whenever register prints something, whatever commodities the ledger has and unless an aggregated register is asked for: it prints the account and one line, under -n followed by the notes, for every posting of the files whose account name means the account asked for (with -r this account or one below it) and that passes the filters, in date order, with date, description, other account, the amount written (or, if left out, the one that balances the transaction) and the running total of what the amounts so far are worth in the account's commodity.", "quantifier": "all directories of ledger files that load, all arguments of the register command without -w -m -q -y -bp -bt (with -r and a payee pattern not inverted by !), all enumeration orders of maps and outcomes of sort", "why_tests_cant": "The domain is infinite; a table of examples samples a handful of values.", "anchors": ["coin.go:LoadAll,ResolveAll", "cmd/coin/main.go:main", "cmd/coin/register.go:execute,fullRegister,subRegister", "cmd/coin/postings.go:print,printLong"]}
{"id": "C158", "title": "The unit on a register line", "statement": "The commodity named on a line of the register is the one its running total is in.", "quantifier": "all ledgers that load, all arguments of the register command", "why_tests_cant": "The domain is infinite; a table of examples samples a handful of values.", "anchors": ["cmd/coin/postings.go:print,printLong", "cmd/coin/register.go:fullRegister"]}
{"id": "C159", "title": "What a commodity declaration means", "statement": "A commodity declaration in any layout (tabs or blanks, settings in any order, repeated settings) declares the named commodity with the last setting of each kind, two decimals unless a format says otherwise, and makes it the default commodity exactly when one of its lines says so.", "quantifier": "all names, layouts, orders and numbers of settings, all lines that follow", "why_tests_cant": "The domain is infinite; a table of examples samples a handful of values.", "anchors": ["commodity.go:parseCommodity,commodityBodyREX", "parser.go:Next", "coin.go:Load"]}
{"id": "C160", "title": "What an account declaration means", "statement": "An account declaration in any layout declares the named account with the last setting of each kind, in the default commodity in force unless it names another; notes of any length are kept.", "quantifier": "all names, layouts, orders and numbers of settings, all lines that follow", "why_tests_cant": "The domain is infinite; a table of examples samples a handful of values.", "anchors": ["account.go:parseAccount,accountBodyREX", "parser.go:Next"]}
{"id": "C161", "title": "What a price line means", "statement": "A price line in any layout is the price of the named commodity on that day, exactly the number written, in the commodity written behind it.", "quantifier": "all dates, names, numbers, gaps", "why_tests_cant": "The domain is infinite; a table of examples samples a handful of values.", "anchors": ["price.go:parsePrice,priceREX", "amount.go:parseAmount"]}
{"id": "C162", "title": "What a transaction means", "statement": "A transaction in any layout is read with its date, code, description, notes, and postings with exactly the amounts and asserted balances written; a note on a line of its own belongs to the posting above it, or to the transaction before the first posting; the transaction ends where a line starts at the margin.", "quantifier": "all dates, codes, descriptions, notes, postings, amounts, layouts, all lines that follow", "why_tests_cant": "The domain is infinite; a table of examples samples a handful of values.", "anchors": ["transaction.go:parseTransaction,transactionREX,postingREX", "amount.go:parseAmount"]}
{"id": "C163", "title": "A ledger file means what its declarations say", "statement": "A file of blank lines, comments, declarations, prices, transactions, tests and includes, each in any layout, is loaded as what they declare, in order, with the contents of included files in the place of the include.", "quantifier": "all such files, nested to any depth the open-file limit allows, from any state", "why_tests_cant": "The domain is infinite; a table of examples samples a handful of values.", "anchors": ["coin.go:Load,LoadFile", "parser.go:Next", "include.go:Files", "test.go:parseTest"]}
{"id": "C164", "title": "Ledger-compatible output", "statement": "With -ledger (format) or -l (gc2coin) a commodity whose id has a character special to ledger is written in double quotes, any other as it is; distinct commodities stay distinct, and records without special characters are written as without the flag, accounts without their bank ids.", "quantifier": "all ids, transactions, accounts, commodities and prices", "why_tests_cant": "The domain is infinite; a table of examples samples a handful of values.", "anchors": ["commodity.go:SafeId,Write", "posting.go:Write", "transaction.go:Write", "account.go:Write", "price.go:Write", "amount.go:Write"]}
{"id": "C165", "title": "Reading ledger-compatible output", "statement": "What format -ledger writes is read back as the transactions it was written from.", "quantifier": "all lists of transactions in canonical form, all loaded states", "why_tests_cant": "The domain is infinite; a table of examples samples a handful of values.", "anchors": ["cmd/coin/format.go:execute", "posting.go:Write", "transaction.go:parseTransaction,postingREX", "coin.go:ResolveTransactions"]}
{"id": "C166", "title": "The account of a statement", "statement": "An OFX statement is posted to the account its id is given for in the rules, else to the account declared with that id, else the import ends; the result of an import does not depend on the order in which the accounts happen to be walked.", "quantifier": "all accounts, rule files, statements and orders of the account map", "why_tests_cant": "The domain is infinite; a table of examples samples a handful of values.", "anchors": ["coin.go:FindAccountOfxId", "rules.go:AccountRulesFor", "cmd/ofx2coin/main.go:readTransactions,newTransaction"]}
{"id": "C167", "title": "Listing of accounts with an OFX id", "statement": "ofx2coin -ids prints exactly one line for each account with an OFX id, in the order of the account names, whatever the order of the map.", "quantifier": "all sets of accounts, all orders of the account map", "why_tests_cant": "The domain is infinite; a table of examples samples a handful of values.", "anchors": ["cmd/ofx2coin/main.go:main", "coin.go:AccountsDo"]}
{"id": "C168", "title": "gen2coin writes a ledger that opens", "statement": "Whatever the random numbers, the dates and the way of splitting into files, gen2coin generates transactions that follow its rules in order of time \u2013 the payee, the accounts and the amount of a rule, or the balance of the receiving account divided by the rule's divisor \u2013 and writes a directory that coin opens, with one commodity and exactly the generated transactions in the order generated.", "quantifier": "all random numbers, all pairs of dates in the years 100 to 9999, all three ways of splitting, all orders of the maps, all directories without coin files, up to 15000 transactions for the part about opening", "why_tests_cant": "The domain is infinite; a table of examples samples a handful of values.", "anchors": ["cmd/gen2coin/main.go:main", "cmd/gen2coin/rules_personal.go:personal", "cmd/gen2coin/rule.go:generatePostings", "coin.go:LoadAll"]}
{"id": "C169", "title": "Aggregated register from the files to the output", "statement": "coin register with -w, -m, -q, -y, -bp or -bt prints, in the format asked for, one column for every account of the subtree with a selected posting in or below it, ordered by the size of their totals, and one row for every period and category in which such a posting falls, in order; in each cell stands the exact sum of the amounts the files state or leave out for the account (with -r including those below, with -c up to the period).", "quantifier": "all directories of one commodity, all command lines in every spelling of the flags, all filters, all outcomes of the sorts, every -g that leaves no account out", "why_tests_cant": "The domain is infinite; a table of examples samples a handful of values.", "anchors": ["cmd/coin/register.go:aggregatedRegister,execute", "cmd/coin/totals.go:output,top,mergeTime,rows", "coin.go:LoadAll"]}
{"id": "C170", "title": "Accounts command from the files to the output", "statement": "coin accounts writes one line for every account of the ledger - each declared one, each ancestor of one, Root and Unbalanced - that the pattern selects and that is not closed (all selected ones with -c), in increasing order of names, aligned, with commodity and description of the last declaration; these are the accounts the reports of the same ledger know.", "quantifier": "all directories, all command lines in every spelling of the flags, all patterns, all orders in which maps are walked", "why_tests_cant": "The domain is infinite; a table of examples samples a handful of values.", "anchors": ["cmd/coin/accounts.go:execute,init", "coin.go:LoadFile,ResolveAccounts,AccountsDo"]}
{"id": "C171", "title": "Tags command from the files to the output", "statement": "coin tags prints one entry for every tag key that some transaction or posting of the files carries and that the expression, if given, matches, in increasing order; with -v the distinct non-empty values of the key in increasing order; with -a the accounts of the postings that carry the key or whose transaction does, in report order, each once. An expression that is not a regular expression ends the program.", "quantifier": "all directories that load, all command lines in every spelling of the flags, all orders in which maps are walked", "why_tests_cant": "The domain is infinite; a table of examples samples a handful of values.", "anchors": ["cmd/coin/tags.go:execute,collectKeys", "coin.go:LoadAll"]}
{"id": "C172", "title": "Stats command from the files to the output", "statement": "coin stats -d prints every pair of transactions dated in [begin, end) that say the same (day, code, the same numbers in the same accounts), each once, earlier first, with place and text of both, and nothing else. Otherwise it prints, transaction by transaction in report order, with -c a line for each whose two postings have opposite numbers in different commodities, with -u place and text per posting to Unbalanced, and then the numbers of commodities declared, prices, accounts, and transactions in the range.", "quantifier": "all directories that load, all command lines in every spelling of the flags, all orders in which maps are walked", "why_tests_cant": "The domain is infinite; a table of examples samples a handful of values.", "anchors": ["cmd/coin/stats.go:execute,transactions", "transaction.go:String,IsEqual", "coin.go:LoadAll"]}
{"id": "C173", "title": "Commodities command from the files to the output", "statement": "coin commodities lists the commodities declared in the commodities file, for each id the last one declared under it, once, in increasing order of ids, with a Q exactly for those with a symbol that are not marked nomarket. coin commodities X prints every price of X in the prices files once, those in one currency together and latest first, with -f each with its place; an id that is not declared prints nothing. coin commodities -p lists the ids, each with the latest price in every currency and the number of prices in it.", "quantifier": "all directories that load, all command lines in every spelling of the flags, all orders in which maps are walked and in which equal dates are sorted", "why_tests_cant": "The domain is infinite; a table of examples samples a handful of values.", "anchors": ["cmd/coin/commodities.go:init,execute", "commodity.go:String,CommoditiesDo", "coin.go:LoadPrices,ResolvePrices"]}
{"id": "C174", "title": "Test command with the commands its tests run", "statement": "coin test -v FILE reports on every test of the file in order: OK exactly if the recorded text is what the command line of the test prints on the ledger of this file, otherwise FAIL and the difference; without -v only the failing ones and one verdict, which is OK exactly if there are none. No file changes unless a test has no result; such a test gets exactly the text its command prints. That text is the one coin prints for the same command line on the same ledger. A test that runs the test command never ends.", "quantifier": "all files that load with what they include, all command lines in every spelling of the flags, all tests of the modelled commands, all texts they print", "why_tests_cant": "The domain is infinite; a table of examples samples a handful of values.", "anchors": ["cmd/coin/test.go:init,execute,updateTestFile", "test.go:Test", "coin.go:Load,ResolveAll"]}
{"id": "C175", "title": "The same files give the same report", "statement": "Running coin balance or coin register twice with the same arguments on unchanged files prints the same text both times. The order in which Go visits maps and the order in which sort.Slice leaves equal elements have no effect on it.", "quantifier": "all directories that load, all pairs of loads of one directory in any map order and any outcome of the unstable sorts, all command lines of balance and register", "why_tests_cant": "The domain is infinite; a table of examples samples a handful of values.", "anchors": ["coin.go:LoadAll,ResolveAll,ResolveAccounts,ResolvePrices", "commodity.go:convert", "cmd/coin/balance.go:execute", "cmd/coin/register.go:execute"]}
{"id": "C176", "title": "Formatting a file in place changes no report", "statement": "After coin format -i FILE of one of the ledger's transaction files, which is meant to change layout only, coin balance and coin register print with every argument what they printed before.", "quantifier": "all directories that load, all files of transactions in them that no other file includes, all arguments of balance and register", "why_tests_cant": "a test formats one file and runs one report; order of transactions, completed amounts and full account names interact with every filter and every assertion in the rest of the ledger", "anchors": ["cmd/coin/format.go:cmdFormat.execute,writeTransactions", "transaction.go:TransactionsByTime.Less,Transaction.Write", "coin.go:LoadAll,ResolveTransactions", "cmd/coin/balance.go", "cmd/coin/register.go"]}
{"id": "C177", "title": "The balance report to the character", "statement": "coin balance prints for a ledger in one commodity exactly one text: the accounts at or below the one asked for that -l and -z leave, ordered by name part by part with Root first; own and cumulative total right-adjusted in columns as wide as the longest total of all accounts at or below it (printed or not); commodity and full name.", "quantifier": "all directories that load in one commodity, all command lines of balance", "why_tests_cant": "a test compares one layout; widths and order depend on every amount and every name in the ledger, also on accounts that are not printed", "anchors": ["cmd/coin/balance.go:cmdBalance.execute,print,maxWidth,curWidth", "coin.go:ResolveAccounts", "amount.go:Width,Format"]}
{"id": "C178", "title": "The register to the character", "statement": "Whenever coin register prints anything (without -w -m -q -y), it prints exactly one text: the heading with account and commodity unless -o asks for another format, then the postings of the account asked for (with -r also of those below it) that the filters leave, by day and within a day account by account in name order, each in the order of the file; date, payee, counter account, amount and running total, padded on the left: payees to the longest of them but at most 50 characters, accounts to the longest but at most what -l gives, amounts to the longest, totals to the length of the last one; commodity of the posting's account, a star behind an asserted balance, notes below with -n.", "quantifier": "all directories that load in any number of commodities, all command lines of register without aggregation (with -r: no inverted payee filter), all prices", "why_tests_cant": "a test compares one layout; the widths, the order and the running totals depend on every posting printed", "anchors": ["cmd/coin/register.go:cmdRegister.execute,flatRegister,fullRegister", "posting.go:Print,PrintPostings,printLine", "coin.go:ResolveTransactions", "amount.go:Width,Format"]}
{"id": "C179", "title": "coin modify moves money only between the accounts named", "statement": "coin modify FLAGS FILE of one of the ledger's transaction files leaves a ledger that loads with the same items, those of the file completed and changed as the flags say. With -a A -a: B (and -p, -tt) the own total of B grows, and that of A shrinks, under every filter without -t, by the sum of the first postings of A in the transactions of the file that -p and -tt select; no other account's total changes; under all flags the totals of all accounts together stay the same; without -a: no balance report changes; and when nothing is changed the file is what format -i writes.", "quantifier": "all directories that load in one commodity, all files of transactions in them that no other file includes, all command lines of modify, all date and payee filters", "why_tests_cant": "a test modifies one file and compares text; what is selected, moved and tagged depends on every transaction, and what the reports show on every filter", "anchors": ["cmd/coin/modify.go:cmdModify.init,execute,modify", "coin.go:LoadFile,ResolveTransactions", "cmd/coin/utils.go:mustParseTags,newTagMatcher"]}
{"id": "C180", "title": "modify reports how many transactions it changed", "statement": "coin modify FLAGS FILE prints on the standard error \"Updated N transactions in FILE\", where N is the number of transactions of the file that it changed.", "quantifier": "all directories, all command lines of modify with one file that run", "why_tests_cant": "tests ignore the standard error", "anchors": ["cmd/coin/modify.go:cmdModify.execute,modify,modifyPosting"]}
{"id": "C181", "title": "format and modify take their files one by one", "statement": "coin format and coin modify with several files do what the same command does with the first file and then, started anew, with the others: the same files, the same text printed. Without -i coin format changes no file and prints for each file what format -i with the same flags writes into it.", "quantifier": "all directories, all files of transactions (also the same one twice), all command lines of format and modify", "why_tests_cant": "tests name one file; what one file leaves loaded can change how the next one is read and written", "anchors": ["cmd/coin/format.go:cmdFormat.execute", "cmd/coin/modify.go:cmdModify.execute", "transaction.go:DropTransactions"]}
{"id": "C182", "title": "A downloaded price is recorded as quoted", "statement": "A price quoted with at most as many decimals as its currency is recorded as it is; any quoted price is recorded to within one unit of the last decimal.", "quantifier": "all float64 prices below 2^62 units, all currencies of up to 18 decimals", "why_tests_cant": "tests try a few prices; which ones survive multiplication by a power of ten in binary follows no pattern", "anchors": ["commodity.go:Commodity.NewAmountFloat", "cmd/coin/commodities.go:cmdCommodities.execute"]}
{"id": "C183", "title": "coin commodities -q prints a price for every commodity on the market", "statement": "coin commodities -q prints one price line of today for every commodity that is traded on a market and is not the default one, in order of the ids, or says on the standard error why there is none; the printed lines kept in a file are loaded as these prices.", "quantifier": "all ledgers, all answers of the quote service", "why_tests_cant": "needs the network; a test would fix the answers of the service", "anchors": ["cmd/coin/commodities.go:cmdCommodities.execute", "price.go:Parser.parsePrice"]}
{"id": "C184", "title": "The balances chart shows the accounts of the balances table", "statement": "The balances chart of the page is always drawn and has one box for the selected account and for every account below it that the table shows with the same depth setting, and each box tells the account's total.", "quantifier": "all account trees, ledgers, dates, depths, normal and negated views", "why_tests_cant": "a test would draw a few trees", "anchors": ["cmd/coin2html/js/src/viewsBalancesChart.ts:viewBalancesChart", "cmd/coin2html/js/src/account.ts:Account.withAllChildBalances"]}
{"id": "C185", "title": "The boxes of the balances chart are as big as their totals", "statement": "The value that decides the area of a box of the balances chart is the account's total over all accounts below it, also those too deep to be shown, as far as it is in the normal direction.", "quantifier": "all account trees, ledgers, dates, depths, normal and negated views", "why_tests_cant": "a test would draw a few trees", "anchors": ["cmd/coin2html/js/src/viewsBalancesChart.ts:viewBalancesChart"]}
{"id": "C186", "title": "Tests do not depend on each other", "statement": "In coin test every test of modify or format prints what it would print if it were the only test of the ledger, whatever tests come before it.", "quantifier": "all ledgers, all sequences of tests of modify and format", "why_tests_cant": "the tests of a file run in one order only", "anchors": ["cmd/coin/test.go:cmdTest.execute", "cmd/coin/modify.go:cmdModify.execute", "cmd/coin/format.go:cmdFormat.execute"]}
{"id": "C187", "title": "A test of modify or format shows what the command writes", "statement": "A test of modify prints exactly the text that modify with the same flags writes into a file with the same transactions, and a test of format the text that format makes of such a file; the test succeeds exactly when the command does.", "quantifier": "all files of transactions, all flags", "why_tests_cant": "a test would compare a few commands", "anchors": ["cmd/coin/test.go:cmdTest.execute", "cmd/coin/modify.go:cmdModify.execute", "cmd/coin/format.go:cmdFormat.execute"]}
{"id": "C188", "title": "The balance report over any commodities to the character", "statement": "coin balance prints over any commodities exactly one text for given prices: the accounts at or below the one asked for that -l and -z leave, ordered by name part by part with Root first; own and cumulative total, each in the account's commodity with the others converted into it, right-adjusted in columns as wide as the longest total of all accounts at or below it (printed or not); the commodity padded to the bytes of the longest one; the full name.", "quantifier": "all directories that load, all prices, all command lines of balance", "why_tests_cant": "a test compares one layout; widths, order and conversions depend on every amount, price and name in the ledger, also on accounts that are not printed", "anchors": ["cmd/coin/balance.go:cmdBalance.execute,print,maxWidth,curWidth", "coin.go:ResolveAccounts", "amount.go:Width,Format,AddIn"]}
{"id": "C189", "title": "The register is always printed", "statement": "coin register prints its report (it neither crashes nor refuses) for every account that is found and every valid filter, in a ledger of one commodity in which every transaction has at least two postings and the amounts add up to less than fifty digits.", "quantifier": "all directories that load in one commodity and all command lines of register without aggregation that meet these conditions", "why_tests_cant": "a test runs a few reports; a crash depends on transactions, widths and accounts in the whole ledger", "anchors": ["cmd/coin/register.go:cmdRegister.execute,fullRegister", "cmd/coin/postings.go:print,printLong,widths", "amount.go:Width,Format"]}
{"id": "C190", "title": "The register and the balance report agree", "statement": "For a directory in one commodity: with the same filters and the same account, the running total in which coin register ends is the own total on the first line of coin balance -z, and with -r it is the cumulative total there.", "quantifier": "all directories that load in one commodity, all accounts and all command lines of the two commands with equal filters, register without aggregation, notes and locations", "why_tests_cant": "each report is tested on its own; that two different programs over two different data structures agree is a statement about all ledgers and filters", "anchors": ["cmd/coin/register.go:cmdRegister.execute,fullRegister", "cmd/coin/balance.go:cmdBalance.execute", "cmd/coin/postings.go:print,printLong,totals"]}
{"id": "C191", "title": "The aggregated register adds up to the balance report", "statement": "For a directory in one commodity: with the same filters, the amounts in the column that coin register -w, -m, -q, -y, -bp or -bt prints for an account add up to the total that coin balance -z shows for the account (its own total; with -r for the register, its cumulative total), and accounts without a column show zero there.", "quantifier": "all directories that load in one commodity, all accounts and all command lines of the two commands with equal filters, any grouping, output format and order of equal columns, every -g that leaves no account out", "why_tests_cant": "the two reports group the postings by different programs; that no posting is dropped or counted twice by one of them is a statement about all ledgers", "anchors": ["cmd/coin/register.go:cmdRegister.execute,aggregatedRegister", "cmd/coin/balance.go:cmdBalance.execute", "cmd/coin/totals.go:timeTotals.add,mergeTotals,accountTotals.rows"]}
{"id": "C192", "title": "Balances over adjoining ranges of dates add up", "statement": "For a directory in one commodity: coin balance -z -e d and coin balance -z -b d, with the same other filters, show for every account own and cumulative totals that add up to those of the report without the division at d; postings on the day d are counted once, in the second.", "quantifier": "all directories that load in one commodity, all accounts, all dates and all command lines of the three reports with otherwise equal filters", "why_tests_cant": "a test looks at a few dates; that the boundary day is neither lost nor counted twice for any order of the transactions is a statement about all ledgers", "anchors": ["cmd/coin/balance.go:cmdBalance.execute,trim", "cmd/coin/utils.go:trim"]}
{"id": "C193", "title": "The page and the balance report agree", "statement": "For a directory in one commodity, whose amounts add up to at most 2^53 units: the register that coin2html's page shows of an account for a range of dates ends in the own total that coin balance -z shows for the account and the same dates, whatever order the two programs walk their maps in.", "quantifier": "all directories that load in one commodity, all accounts, all ranges of dates, all command lines of balance that filter by date only, all map orders and sorts of the two programs", "why_tests_cant": "one program is written in Go, the other in JavaScript over exported JSON; that they agree is a statement about all ledgers", "anchors": ["cmd/coin2html/main.go:main", "cmd/coin2html/js/src/viewsRegister.ts:viewRegisterFull", "cmd/coin/balance.go:cmdBalance.execute", "coin.go:LoadAll,ResolveTransactions"]}
{"id": "C194", "title": "The books balance", "statement": "For a directory in one commodity: coin balance -z of all accounts shows the cumulative total zero on the line of Root, whatever dates and payees are selected.", "quantifier": "all directories that load in one commodity, all date and payee filters, levels and spellings of the command line", "why_tests_cant": "the zero is a sum over all transactions, those with amounts left out included; a test adds up one ledger", "anchors": ["cmd/coin/balance.go:cmdBalance.execute", "coin.go:ResolveTransactions", "cmd/coin/utils.go:trim"]}
{"id": "C195", "title": "The page's register with subaccounts ends in the cumulative total", "statement": "For a directory in one commodity: the register of an account with its subaccounts on the page, over a range of dates, ends in the cumulative total that coin balance -z shows for the account and the same dates, as long as no account below it is hidden.", "quantifier": "all directories that load in one commodity (amounts adding up to at most 2^53 units), all accounts but Root, ranges, time zones, orders in which maps are enumerated", "why_tests_cant": "two programs in two languages find the accounts below in different ways, by links and by names", "anchors": ["cmd/coin2html/js/src/account.ts:withAllChildPostings", "cmd/coin2html/js/src/viewsRegister.ts:viewRegisterFullWithSubAccounts", "cmd/coin/balance.go:cmdBalance.execute"]}
{"id": "C196", "title": "The page's table of balances agrees with the balance report", "statement": "For a directory in one commodity without asserted balances: every row of the page's table of balances at the end of a day shows the own and the cumulative total that coin balance -z shows for the account up to that day, as long as no account below is hidden.", "quantifier": "all directories that load in one commodity (amounts adding up to at most 2^53 units) without asserted balances, all accounts but Root, days, depths, orders in which maps are enumerated", "why_tests_cant": "the page takes balances that were stored with the postings and adds them up along its tree, coin selects postings and adds them up by names", "anchors": ["cmd/coin2html/js/src/viewsBalances.ts:viewBalances", "cmd/coin2html/js/src/account.ts:balanceAt,withAllChildBalances", "cmd/coin/balance.go:cmdBalance.execute"]}
{"id": "C197", "title": "The register explains the change of the balance on the page", "statement": "On the page of a directory in one commodity without asserted balances, the balance of an account at the end of a day is its balance before the first day of a range ending there plus the total on the last row of its register for the range.", "quantifier": "all directories that load in one commodity (amounts adding up to at most 2^53 units) without asserted balances, all accounts, ranges of days, time zones", "why_tests_cant": "balances are stored with the postings when the files are loaded, the register adds up quantities in the browser; a test compares them on one range", "anchors": ["cmd/coin2html/js/src/viewsRegister.ts:viewRegisterFull", "cmd/coin2html/js/src/account.ts:balanceAt"]}
{"id": "C198", "title": "Levels and the account asked for choose lines, not numbers", "statement": "For a directory in one commodity: two balance reports (-z) for the same dates, payees and tags show an account with the same own and cumulative totals, whatever levels and accounts they are asked for, if both show it.", "quantifier": "all directories that load in one commodity, all pairs of command lines with the same filters, all accounts", "why_tests_cant": "the totals of accounts below the level are left out of the report but not of the sums", "anchors": ["cmd/coin/balance.go:cmdBalance.execute", "cmd/coin/utils.go:trim"]}
{"id": "C199", "title": "The balances on the page add up to zero", "statement": "On the page of a directory in one commodity without asserted balances and without postings to Root, the balances of all accounts at the end of any day add up to zero.", "quantifier": "all directories that load in one commodity without asserted balances or postings to Root, all days", "why_tests_cant": "the zero is a sum over all accounts of balances stored with different postings", "anchors": ["cmd/coin2html/js/src/account.ts:balanceAt,loadAccounts", "cmd/coin2html/main.go:main", "coin.go:ResolveTransactions"]}
