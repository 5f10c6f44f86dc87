#!/usr/bin/env python3
# Generates /verif/properties.jsonl (kept so that the list is easy to append to).
import json
P=[]
def p(id,title,statement,quant,why,*anchors):
    P.append(dict(id=id,title=title,statement=statement,quantifier=quant,why_tests_cant=why,anchors=list(anchors)))
INF="The domain is infinite; a table of examples samples a handful of values."
# ---- amounts
p("C01","Printed amounts read back unchanged","For every amount whose printed digits fit a signed 64-bit integer and whose commodity has at most 50 decimals, printing it (String / Write) and parsing the printed number with the same commodity yields exactly the same value and commodity.","all integers x all decimals 0..50",INF,"amount.go:Amount.String","amount.go:parseAmount","amount.go:Amount.Write")
p("C02","Exact parsing of well formed numbers","A decimal literal [-]digits[.digits] with no more fraction digits than the commodity has decimals denotes exactly its mathematical value: parseAmount returns value*10^decimals, or an error when the digit string does not fit in 64 bits; it never returns a wrong value.","all literals, all decimals",INF,"amount.go:parseAmount")
p("C03","Excess fraction digits are dropped toward zero","A literal with more fraction digits than the commodity has decimals is shortened by dropping the extra digits, for negative as for positive values.","all literals, all decimals","Tests only use positive examples; the sign matters.","amount.go:parseAmount")
p("C04","Adding amounts of one commodity is exact","Adding any sequence of amounts of one commodity into a total gives the exact sum and is independent of order.","all lists of amounts and all permutations","Unbounded lists and all orders.","amount.go:Amount.AddIn")
p("C05","Adding an amount of another commodity","When a direct price exists the added value differs from the exact rational product by less than one smallest unit; when conversion is impossible the total is left unchanged and an error is returned.","all totals, amounts, price databases",INF,"amount.go:Amount.AddIn","commodity.go:Commodity.Convert","amount.go:Amount.Times")
p("C06","Comparison agrees with numeric order","IsEqual/IsLessThan/IsMoreThan decide the numeric order of the two amounts (trichotomy, antisymmetry, transitivity).","all pairs/triples of amounts",INF,"amount.go:Amount.Cmp")
p("C07","Negation","Negated is an involution, keeps the commodity, x plus its negation is zero, and Copy is independent of the original.","all amounts",INF,"amount.go:Amount.Negated","amount.go:Amount.Copy")
p("C08","Width equals printed length","Width(decimals) of an amount at its commodity's decimals is exactly the length of its printed form, so padded columns line up.","all amounts below 10^50",INF,"amount.go:Amount.Width","pow10.go:bigLog10")
p("C09","Integer logarithm and powers","log10/bigLog10 return the floor of the base 10 logarithm, pow10/bigPow10 the power of ten, on their whole supported range, and bigLog10/bigPow10 panic exactly outside of it; SetFraction(10^n) sets n decimals.","all integers in range",INF,"pow10.go:log10","pow10.go:pow10","pow10.go:bigLog10","pow10.go:bigPow10","commodity.go:Commodity.SetFraction")
p("C10","Fraction amounts round down","NewAmountFrac(num, den) is the largest representable amount not exceeding num/den for positive den.","all num, den>0, decimals",INF,"amount.go:NewAmountFrac")
p("C11","Magnitude comparison","IsBigger(a,b) holds exactly when |a| > |b| as numbers.","all pairs of amounts","Tests compare amounts with equal decimals only.","amount.go:Amount.CmpMagnitude")
# ---- conversion
p("C12","Conversion always terminates","Convert returns (a value or an error) for every price graph, including cyclic ones, whatever order the price map is iterated in.","all finite price graphs x all map orders","Cyclic graphs of every size.","commodity.go:Commodity.convert")
p("C13","Conversion succeeds exactly when prices connect","Convert from c2 to c succeeds if and only if c is reachable from c2 through a chain of known prices.","all finite price graphs x all map orders","Reachability in arbitrary graphs.","commodity.go:Commodity.convert")
p("C14","Conversion does not depend on map order","The converted value is the same for every iteration order of the price maps.","all map orders","A test observes one order per run.","commodity.go:Commodity.convert")
p("C15","Converted amount is in the target commodity","Convert(amount, c2) on c returns an amount denominated in c, correct to c's decimals.","all amounts and prices","Existing tests use equal decimals and ignore the commodity.","commodity.go:Commodity.convert","amount.go:Amount.Times")
p("C16","Conversion uses the most recent price","After loading, a direct conversion uses a price with the latest date among all prices recorded for the pair, whatever order prices appeared in the files.","all price histories and their permutations","All permutations of all histories.","coin.go:ResolvePrices","commodity.go:Commodity.AddPrice","commodity.go:Commodity.convert")
# ---- postings
p("C17","Account postings stay sorted and duplicate free","After any sequence of adding, removing and moving postings every account's posting list is sorted by date and contains no posting twice.","all operation sequences","Unbounded histories.","account.go:Account.addPosting","account.go:Account.deletePosting","account.go:Account.findPosting","posting.go:Posting.MoveTo")
p("C18","Postings behave like a set; ties keep arrival order","Adding makes a posting present exactly once and removes nothing; deleting removes exactly that posting; postings of the same day stay in insertion order.","all operation sequences","Unbounded histories.","account.go:Account.addPosting","account.go:Account.deletePosting")
p("C19","Moving a posting loses nothing","MoveTo transfers the posting from its account to the target: the total multiset of postings over all accounts is unchanged and all other postings stay where they were.","all ledgers, all moves","Unbounded histories.","posting.go:Posting.MoveTo")
# ---- account tree
p("C20","Accounts form one tree","After loading any set of accounts, every account other than Root has exactly one parent, namely the account whose full name is its name up to the last colon (Root for top level names), appears exactly once in that parent's children, and every account is reachable from Root.","all sets of account names x all map orders","All name sets and all map iteration orders.","coin.go:ResolveAccounts","account.go:Account.adopt","account.go:parentAndName")
p("C21","Missing ancestors are created, nothing else is","ResolveAccounts adds exactly the missing proper ancestors of the declared accounts plus Root and Unbalanced and keeps every declared account.","all sets of account names x all map orders","As above.","coin.go:ResolveAccounts")
p("C22","Closing an account closes its subtree","IsClosed holds exactly when the account or one of its ancestors carries a closing date.","all account trees","Unbounded depth.","account.go:Account.IsClosed")
p("C23","Depth counts name components","Depth of an account equals the number of colon separated components of its full name.","all account trees","Unbounded depth.","account.go:Account.Depth")
p("C24","Ambiguous account patterns are rejected","MustFindAccount returns an exactly named account if there is one; otherwise the only match, or the match that is an ancestor of all other matches; if matches are ambiguous it refuses.","all account sets and patterns","Tests cover a handful of patterns.","coin.go:MustFindAccount","coin.go:FindAccounts")
p("C25","Shortened account names","ShortenAccountName returns the name unchanged if it fits, otherwise keeps the number of components and at least one character of each non-empty component, each component a prefix of the original, and the result length is max(size, minimal possible length).","all names and sizes",INF,"account.go:ShortenAccountName")
# ---- transactions
p("C26","Accepted single-commodity transactions balance","After ResolveTransactions succeeds every transaction whose accounts share one commodity and whose quantities are in it sums exactly to zero.","all ledgers","All ledgers.","coin.go:ResolveTransactions")
p("C27","Unbalanced transactions are rejected","Loading fails if and only if some single-commodity transaction without elided amount has a non-zero sum, some transaction has two elided amounts, a mixed transaction has an elided amount, an account cannot be found, or an amount cannot be converted.","all ledgers","All ledgers.","coin.go:ResolveTransactions")
p("C28","An elided amount is the unique balancing one","The single elided quantity is set to the value that makes the transaction sum to zero and all stated quantities are kept as written.","all transactions","All transactions.","coin.go:ResolveTransactions")
p("C29","Running balances","After loading, the balance recorded on each posting of a single-commodity account without assertion is the exact sum of the account's postings up to and including it, in date order, and the account balance is the sum of all of them.","all ledgers","All ledgers.","account.go:Account.CheckPostings","coin.go:ResolveTransactions")
p("C30","Balance assertions are checked and kept","A warning is printed for exactly those asserted postings whose running balance differs from the assertion; asserted balances are never altered and do not influence running balances.","all ledgers","All ledgers.","account.go:Account.CheckPostings")
p("C31","Accounting equation","In a loaded single-commodity ledger the balances of all accounts sum to zero.","all ledgers","Needs every ledger.","coin.go:ResolveTransactions","account.go:Account.CheckPostings")
p("C32","Transactions end up in date order","After loading, transactions are a permutation of the loaded ones, in date order, on each day those without balance assertion first, otherwise in input order.","all transaction lists",INF,"transaction.go:TransactionsByTime.Less","coin.go:ResolveTransactions")
p("C33","Day lookup","Day(d) returns exactly the transactions posted on d, in order.","all sorted lists and days","Binary search boundaries.","transaction.go:TransactionsByTime.Day")
p("C34","Begin/end filters","The -b/-e filters of balance and register keep exactly the postings with begin <= date < end, in order; an omitted bound does not restrict.","all sorted lists and date bounds","Binary search boundaries.","cmd/coin/utils.go:trim")
p("C35","Stats date range","stats -b/-e considers exactly the transactions with begin <= date < end.","all sorted lists and date bounds","Binary search boundaries.","cmd/coin/stats.go:cmdStats.transactions")
# ---- balance command
p("C36","balance totals","Each row's own total is the exact sum of the account's selected postings (one commodity).","all trees and ledgers","All ledgers.","cmd/coin/balance.go:cmdBalance.execute")
p("C37","balance cumulative totals","Each row's cumulative total is the exact sum over the account and all its descendants, each counted once (one commodity).","all trees and ledgers","All trees.","cmd/coin/balance.go:cmdBalance.execute","account.go:Account.FirstWithChildrenDo","account.go:Account.WithChildrenDo")
p("C38","balance row selection","A row is printed for exactly the accounts of the subtree within the requested level whose cumulative total is non-zero (or all with -z), parents before children (one commodity).","all trees, flags","All trees.","cmd/coin/balance.go:cmdBalance.print")
# ---- register
p("C39","register running totals","The running total printed on row i is the exact sum of quantities of rows 0..i; register -r lists every selected posting of the subtree exactly once, in date order (one commodity, payee filter not inverted, see C47).","all trees and ledgers","All ledgers.","cmd/coin/register.go:cmdRegister.fullRegister","cmd/coin/postings.go:postings.totals")
p("C40","register does not crash on a loaded ledger","The plain register prints every ledger that loads.","all loaded ledgers","Tests have only two-posting transactions.","cmd/coin/postings.go:postings.widths","transaction.go:Transaction.Other")
p("C41","Period totals","For postings in date order the aggregated register yields one total per period, strictly increasing in time, each the exact sum of the postings falling into that period, and only for periods with postings.","all posting lists, all reducers",INF,"cmd/coin/totals.go:timeTotals.add")
p("C42","Merging timelines","merge of two strictly sorted timelines is their pointwise sum over the union of times; mergeKeys keeps all amounts and adds zero totals for missing times; both keep the timeline strictly sorted.","all pairs of timelines","Offsets bookkeeping over all interleavings.","cmd/coin/totals.go:timeTotals.mergeTotals")
p("C43","Top n keeps the grand total","Restricting an aggregated register to the n largest accounts conserves the sum over all columns (the rest is reported as Other).","all total sets and n","Boundary n+1.","cmd/coin/totals.go:cumulative.top")
p("C44","Aggregated register does not crash","The aggregated register completes for every loaded ledger.","all ledgers and flags","Depends on magnitudes and map order.","cmd/coin/register.go:cmdRegister.aggregatedRegister","cmd/coin/totals.go:cumulative.mergeTime")
p("C45","Columns are aligned in time","Whenever the aggregated register completes, every column has exactly the same sequence of periods.","all ledgers","All ledgers.","cmd/coin/register.go:cmdRegister.aggregatedRegister","cmd/coin/totals.go:cumulative.mergeTime")
p("C46","Cumulative aggregation","With -c every total is the sum of the period totals up to it.","all timelines",INF,"cmd/coin/totals.go:timeTotals.makeCumulative")
p("C47","Inverted payee filter","register -p '!x' selects exactly the postings whose payee does not match x, in every account of the subtree.","all trees and ledgers","A single-account test passes.","cmd/coin/register.go:cmdRegister.trim")
p("C48","Inverted tag filter","A '!' tag expression selects exactly the items the same expression without '!' does not select.","all tag sets and expressions","Tests use one tag.","tags.go:TagMatcher.Match")
# ---- modify / format
p("C49","modify changes every selected posting and nothing else","modify -a X -a: Y moves every posting on X of the selected transactions to Y and leaves all other postings, quantities and dates unchanged.","all transactions","Tests have one matching posting.","cmd/coin/modify.go:cmdModify.modify")
p("C50","modify adds the tag","After modify -tt:/-pt: adds a tag, rereading the item yields the old tags plus the new one.","all notes and tags","Depends on the surrounding note text.","cmd/coin/modify.go:addTagLine","tags.go:ParseTags")
p("C51","In-place rewriting is crash safe","At every crash point of format -i / modify the file name refers to either the complete old or the complete new content.","all crash points","Crash points.","cmd/coin/format.go:cmdFormat.execute","cmd/coin/modify.go:cmdModify.execute")
p("C52","In-place rewriting keeps other content","format -i / modify keep everything in the file that is not a transaction.","all files",INF,"cmd/coin/format.go:cmdFormat.execute")
p("C53","Written transactions read back","A transaction in canonical form written with Write and parsed again yields the same date, code, description, notes, accounts, quantities and balance assertions.","all canonical transactions","Unbounded text.","transaction.go:Transaction.Write","transaction.go:Parser.parseTransaction","posting.go:Posting.Write")
p("C54","Formatting is idempotent","Formatting already formatted output changes nothing.","all transactions","Unbounded text.","transaction.go:Transaction.Write","transaction.go:Parser.parseTransaction")
p("C55","format only reorders","format outputs every transaction of the file exactly once, sorted as in C32.","all files",INF,"cmd/coin/format.go:cmdFormat.writeTransactions","coin.go:ResolveTransactions")
# ---- dates
p("C56","Full dates read back","Every date from year 0 to 9999 printed as yyyy/mm/dd parses back to the same date, whatever today is.","all dates",INF,"date.go:parseDate")
p("C57","Two digit years","A two digit year means the year closest to the current one with those last digits.","all current years, all two digit years","Tests spoof one year.","date.go:parseDate")
p("C58","Omitted years","mm/dd means the occurrence of that month closest to today's month.","all todays and months","Boundaries.","date.go:parseDate")
p("C59","Date offsets","+-n d/w moves the date by exactly n / 7n days; +-n m/y moves by n months / 12n months with Go calendar normalisation.","all dates and offsets",INF,"date.go:parseDate")
p("C60","Period reduction","The week/month/quarter/year of a date starts on or before it, contains it, the reduction is idempotent and monotone, and two dates reduce to the same value exactly when they are in the same calendar period.","all dates",INF,"cmd/coin/totals.go:week","cmd/coin/totals.go:month","cmd/coin/totals.go:quarter","cmd/coin/totals.go:year")
# ---- parser
p("C61","Parser never crashes","Loading any text either succeeds or reports an error, it does not panic with a nil dereference.","all texts","All inputs.","parser.go:Parser.Next","transaction.go:Parser.parseTransaction","account.go:Parser.parseAccount")
p("C62","An empty note line is not a posting","A note line with empty text inside a transaction does not add a posting.","all transactions","Rare input.","transaction.go:postingREX","transaction.go:Parser.parseTransaction")
p("C63","A transaction ends where the next item begins","A line that starts a new item (date, comment or include at column 0) is never consumed as a posting of the preceding transaction.","all texts","Rare input.","transaction.go:postingREX","transaction.go:Parser.parseTransaction")
p("C64","Tags","ParseTags finds every #key and #key: value in the notes, the last occurrence of a key wins, values are trimmed.","all notes",INF,"tags.go:ParseTags")
p("C65","Commodities, accounts and prices read back","A commodity, account or price written with Write parses back to the same item.","all items",INF,"commodity.go:Commodity.Write","commodity.go:Parser.parseCommodity","account.go:Account.Write","account.go:Parser.parseAccount","price.go:Price.Write","price.go:Parser.parsePrice")
# ---- importing
p("C66","Imported transactions are balanced","Every transaction created by Post has two postings summing to zero, in accounts from and to, with the receiving posting first.","all amounts and accounts",INF,"transaction.go:Transaction.Post","transaction.go:Transaction.PostConversion")
p("C67","Duplicate detection","The importer emits every transaction of the batch that equals no existing transaction of the same day and no earlier one of the batch, and only those.","all ledgers and batches",INF,"cmd/ofx2coin/main.go","transaction.go:Transaction.IsEqual","transaction.go:TransactionsByTime.FindEqual")
p("C68","Merging a duplicate keeps its balance","When a duplicate carrying a balance is dropped, the balance ends up on the transaction that is kept.","all batches","Needs duplicates with balances.","transaction.go:TransactionsByTime.FindEqual","transaction.go:Transaction.MergeDuplicate","cmd/ofx2coin/main.go")
p("C69","First matching rule wins","RuleFor returns the first rule, in depth first textual order through included rule sets, whose pattern matches the payee, and nil if none does.","all rule trees and payees",INF,"rules.go:AccountRules.RuleFor","rules.go:RuleSet.RuleFor","rules.go:Rule.RuleFor")
p("C70","Rule lookup terminates","RuleFor terminates for every rule file that ScanRules accepts.","all rule files","Self referencing sets.","rules.go:ScanRules","rules.go:RuleSet.RuleFor")
# ---- stats
p("C71","Duplicate report","stats -d reports exactly the pairs of equal transactions.","all sorted transaction lists",INF,"cmd/coin/stats.go:cmdStats.execute","transaction.go:Transaction.IsEqual")
p("C72","Aggregated register values","With no account left out by -g the aggregated register has a column for exactly the accounts with selected postings in or below them and a row for exactly the periods/categories of the selected postings, in order; each cell is the exact sum of the selected postings of the account (with -r: and below) in that period/category, with -c of all up to that period (one commodity).","all trees, ledgers, filters, reducers","All ledgers.","cmd/coin/register.go:cmdRegister.aggregatedRegister","cmd/coin/totals.go:cumulative")
p("C73","Month and year texts","yyyy/mm means the first day of that month and yyyy the first day of that year.","all years and months",INF,"date.go:parseDate")
p("C74","Only whole dates are accepted","Date flags accept a text only if all of it is a date with an optional offset; other texts are reported as errors.","all texts","All inputs.","date.go:DateREX","date.go:Date.Set")
p("C75","A rule matches by the pattern written on its line","The rule read from an indented line with an account and a pattern has exactly that account and pattern; blanks around the pattern do not count.","all accounts, patterns and blanks","All texts.","rules.go:bodyRE","rules.go:ScanRules")
p("C76","Empty lines in a rule file","An empty line in a rule file changes nothing.","all rule files and positions","All texts.","rules.go:ScanRules","rules.go:headerRE")
p("C77","Statement balance","The last transaction imported from a bank statement asserts the statement's closing balance on the statement's account, and no other transaction of it asserts a balance.","all statements and rules",INF,"cmd/ofx2coin/main.go:readTransactions","cmd/ofx2coin/main.go:newTransaction")
p("C78","Dumped rules read back","The rules of every accepted rule file can be dumped, and reading the dump gives the same rules.","all rule files",INF,"rules.go:RuleIndex.Write","rules.go:writeRules","rules.go:Rule.Write")
# ---- loading
p("C79","Included files are loaded in place","Loading a file gives the same items as loading the one text in which every include line is replaced by the contents of the included files, in order.","all files, contents and include graphs",INF,"coin.go:Load","coin.go:LoadFile","include.go:Include.Files")
p("C80","Include loops","A file that includes itself, directly or through other files, is never loaded successfully, and otherwise loading does not depend on how many files may be open, as long as it is enough.","all include graphs and limits",INF,"coin.go:LoadFile","include.go:Include.Files")
p("C81","Every ledger file is loaded once","Loading the ledger directory reads every .coin file in it exactly once.","all directories","Depends on which files exist.","coin.go:LoadAll","coin.go:LoadPrices")
p("C82","Account patterns","A pattern a:b:c of words finds exactly the accounts with components containing a, b, c in this order, ^ and $ anchoring the first to the beginning and the last to the end of the name.","all patterns of words and all account names",INF,"coin.go:ToRegex","coin.go:FindAccounts")
p("C83","Layout of written transactions","The amounts of a written transaction end in one column, and the first note of a transaction or posting is on its line exactly when the line stays below 80 bytes.","all transactions",INF,"transaction.go:Transaction.Write","posting.go:Posting.Write","amount.go:Amount.Width")
# ---- gen2coin
p("C84","Weekly dates of a sample","weekly(count, interval, days) generates, in order and each once, dates on the given weekdays of every interval-th week between begin and end inclusive: count of them in every full week, and all of them if there are no more than count.","all ranges, intervals, counts, days and random draws",INF,"cmd/gen2coin/dates.go:weekly")
p("C85","Monthly dates of a sample","monthly(count, interval, days) generates, in order, dates on the given days of the month (counted from the end if negative) of every interval-th month between begin and end inclusive: count in every full month, all of them if there are no more than count.","all ranges, intervals, counts, days and random draws",INF,"cmd/gen2coin/dates.go:monthly")
p("C86","Splitting a ledger into files","Splitting by year, by month or not at all puts every transaction into exactly one file, that of its period, keeping the order.","all sorted ledgers",INF,"cmd/gen2coin/main.go:batchesByLabel","cmd/gen2coin/main.go:main")
p("C87","Balances on generated postings","With -wb every generated posting carries the running balance of its account.","all rules and random draws","The balances were already accumulated while generating.","cmd/gen2coin/main.go:main","cmd/gen2coin/rule.go:rule.generatePostings","account.go:Account.CheckPostings")
p("C88","Generated amounts","Random amounts are whole units within the bounds of the rule, repaying a balance makes it zero, and paying a fraction of a balance is exact up to rounding.","all rules, balances and random draws",INF,"cmd/gen2coin/rule.go:amtBetween","cmd/gen2coin/rule.go:amtFromBalance","cmd/gen2coin/rule.go:rule.generatePostings","cmd/gen2coin/rule.go:pow")
# ---- tags, import round trip
p("C89","Tag categories","Postings are put into the same tag category exactly if every tag key has the same value for both, a posting's own tags overriding those of its transaction, independently of the order in which the tags are written.","all tags of transactions and postings, all map orders",INF,"cmd/coin/totals.go","tags.go:Tags.KeysAndValues")
p("C90","tags command","The tags command lists every selected key in use once, in increasing order, with its distinct values in increasing order and its accounts in order of first use, independently of map iteration order.","all ledgers, patterns and map orders","Go randomizes map iteration.","cmd/coin/tags.go:cmdTags.execute")
p("C91","What ofx2coin writes reads back","Loading what the import of a statement writes gives its transactions with the dates, payees, notes, accounts, amounts and balance that were imported.","all statements",INF,"cmd/ofx2coin/main.go:main","cmd/ofx2coin/main.go:newTransaction","transaction.go:Transaction.Write")
# ---- test command
p("C92","Filled in test results read back","After coin test wrote the missing results of the tests of a file, loading the file gives the same items, each test that had no result now having the output of its command as result.","all test files and outputs",INF,"cmd/coin/test.go:updateTestFile","cmd/coin/test.go:cmdTest.execute","test.go:Parser.parseTest")
p("C93","Missing results go below their tests","coin test writes the output of each test that has no result directly below the first line of that test and changes nothing else in any file.","all ledgers of any number of files",INF,"cmd/coin/test.go:updateTestFile","cmd/coin/test.go:cmdTest.execute")
p("C94","Test verdicts","coin test reports exactly the tests whose result differs from the output, and for every file OK exactly if none of its tests fails; with -v exactly one line per test with a result.","all test files and outputs",INF,"cmd/coin/test.go:cmdTest.execute")
# ---- csv2coin
p("C95","Values of a csv record","The value of a csv source field is the first non-empty one of its rules; an extraction rule gives the record's field, or the template with $0..$9 replaced by the subgroups of the match (empty if there is none); a derivation rule gives the template with ${name} replaced by the value of that name, or empty if its condition is not met. Other text of a template is kept.","all sources, templates, records and expressions",INF,"cmd/csv2coin/rules.go:Field.Value","cmd/csv2coin/rules.go:Field.derivedField","cmd/csv2coin/rules.go:Field.directField")
p("C96","Derived values end","Evaluating a value of any csv source on any record ends.","all sources and records","Depends on the references between values.","cmd/csv2coin/rules.go:Field.derivedField","cmd/csv2coin/rules.go:Fields.Value")
p("C97","Csv transactions balance","Every transaction made from a csv record balances: its postings move the record's amount, or exchange the traded quantity for it, between the account and the account of the rules.","all records, rules and ledgers",INF,"cmd/csv2coin/main.go:transactionFrom")
p("C98","Accounts of csv transactions","A posting of a csv transaction is in the account the rules name if that account is in the posting's commodity, else in the first account below it that is (children before their parents), else in Unbalanced.","all account trees and commodities",INF,"cmd/csv2coin/main.go:findAccountForCommodity","cmd/csv2coin/main.go:transactionFrom")
p("C99","Every csv record is imported","Of every csv file exactly the records after the skipped lines become transactions, except those dropped by a rule, with their dates, in order of time.","all files, header lengths and record widths",INF,"cmd/csv2coin/main.go:readTransactions","cmd/csv2coin/main.go:main")
p("C100","csv.rules is read as written","Every csv.rules file as documented, either section being optional, is read as the sources and rules written in it; the dump of the rules is such a file; -fields maps the listed indexes.","all sources, mappings, templates, expressions and rules",INF,"cmd/csv2coin/rules.go:ScanSource","cmd/csv2coin/rules.go:ReadRules","cmd/csv2coin/rules.go:Rules.Write","cmd/csv2coin/main.go:parseFields")
p("C101","What csv2coin writes reads back","Loading what csv2coin writes gives the transactions with the dates, descriptions, notes, accounts and amounts that were imported.","all files and sources",INF,"cmd/csv2coin/main.go:main","transaction.go:Transaction.Write")
p("C102","OFX headers of BMO files are repaired","Reading a downloaded OFX file gives its text with the blank line missing before the first <OFX> line inserted, and nothing else changed, whatever buffer sizes the reader is asked for.","all texts and all sequences of buffer sizes",INF,"cmd/ofx2coin/bmo.go:bmoReader")
p("C103","The accounts command lists the open accounts","The accounts command lists, in increasing order of names and each once, exactly the accounts the pattern selects that are not closed (all selected ones with -c), in aligned columns.","all sets of declared accounts, patterns, flags and map iteration orders",INF,"cmd/coin/accounts.go:cmdAccounts.execute","coin.go:AccountsDo","account.go:Account.IsClosed")
p("C104","The commodities command lists commodities and prices","The commodities command lists every commodity once in increasing order of id, and with -p every price of the commodities once, latest first, independently of map iteration order.","all commodities, prices and map iteration orders",INF,"cmd/coin/commodities.go:cmdCommodities.execute","coin.go:CommoditiesDo")
p("C105","gc2coin converts the tree of accounts","Every account of a GnuCash book becomes one coin account: its full name is the chain of names from the top, without the root and without blanks, joined by colons, whatever order the map of accounts is iterated in; two accounts get two names; commodity, description and the OFX ids from online_id are kept; the conversion stops only on unknown parents or ids.","all books with distinct GUIDs, tree shapes, names and map iteration orders",INF,"gnucash/account.go:resolveAccounts,buildFullName,AccountFrom")
p("C106","gc2coin keeps amounts","A fraction n/d of a GnuCash book becomes an amount of the same value in the commodity's decimals, a balanced transaction stays balanced, and texts that are not fractions stop the conversion.","all fractions, signs and numbers of decimals",INF,"gnucash/gnucash.go:mustParseAmount","gnucash/commodity.go:CommodityFrom")
p("C107","gc2coin -y splits a book by year","With -y the prices and the transactions of each year are written to a file named after the year, each once and in order of time, next to the commodities and the accounts, and no other file changes; without -y four files get everything.","all books, years and directories",INF,"cmd/gc2coin/main.go:main,next")
p("C108","gc2coin keeps transactions","Every transaction of a GnuCash book is written once, in order of time, under the day of its own date text, with number, description, the part after the first ' - ' as note, and a posting for each split in order, to the split's account with its quantity and memo; unknown accounts and unreadable dates stop the conversion; balances do not depend on the order of postings of one instant.","all transactions, date texts, descriptions and splits",INF,"gnucash/transaction.go:resolveTransactions","gnucash/split.go:resolveSplits","gnucash/gnucash.go:mustParseTimeStamp")
p("C109","coin loads what gc2coin writes","A book that gc2coin writes to COINDB, with or without -y, is loaded by coin from that directory: the same commodities, prices, accounts and transactions in the same order.","all books, directories and listings of files",INF,"cmd/gc2coin/main.go:main","coin.go:LoadAll,LoadPrices")
p("C110","The page keeps amounts","Every amount that coin2html writes is read by the page as the same amount of the same commodity.","all amounts, numbers of decimals and commodities",INF,"amount.go:Amount.MarshalJSON","cmd/coin2html/js/src/commodity.ts:Amount.parse")
p("C111","The page prints amounts","An amount is printed without separators as it was given, with separators it differs only by commas cutting the integer digits into groups of three, and what is displayed can be read back.","all amounts and numbers of decimals",INF,"cmd/coin2html/js/src/commodity.ts:Amount.toString","cmd/coin2html/js/src/commodity.ts:Amount.parse")
p("C112","The page converts by a price","Converting an amount by a price gives amount times price rounded to the smallest unit of the price's commodity, within one unit of what coin reports.","all amounts, prices and numbers of decimals",INF,"cmd/coin2html/js/src/commodity.ts:Amount.convertTo","amount.go:Amount.Times")
p("C113","The page picks a price of the date","For any known prices and any date one of the prices is used, never failing; later dates get later prices; the price used is close to the date, and on the day of a price it is that price.","all sequences of prices and dates",INF,"cmd/coin2html/js/src/commodity.ts:newConversion")
p("C114","The page finds chains of prices","A search for a conversion ends, finds a chain of as few prices as possible exactly when prices, used both ways, connect the two commodities, and its answer does not depend on what was converted before.","all prices, commodities and histories of earlier conversions",INF,"cmd/coin2html/js/src/commodity.ts:Commodity.findConversion","cmd/coin2html/js/src/commodity.ts:Commodity.conversions","cmd/coin2html/js/src/commodity.ts:Commodity.convert","cmd/coin2html/js/src/commodity.ts:composeConversions","cmd/coin2html/js/src/commodity.ts:loadPrices")
p("C115","Conversions over chains are exact to a unit","Converting over two prices gives the product of amount and prices up to one smallest unit of the result.","all amounts and pairs of prices",INF,"cmd/coin2html/js/src/commodity.ts:composeConversions","cmd/coin2html/js/src/commodity.ts:Amount.convertTo")
p("C116","The data in the page survives as text","Every value coin2html writes into the page (descriptions, notes, tags, names with any characters) is read back by the page unchanged, and the written text contains no '<', '>' or '&' and no control characters but newline and tab, so no ledger text can end the script element or be altered by the browser.","all values (texts with any characters, any nesting)",INF,"cmd/coin2html/main.go:main","cmd/coin2html/js/src/commodity.ts:loadCommodities","cmd/coin2html/js/src/account.ts:loadAccounts")
p("C117","The page has the ledger's accounts","The page generated by coin2html has exactly the accounts of the ledger (other than the invisible Root), in the order of their full names, each with its name, commodity, closing day and parent.","all loaded ledgers, any iteration order of the account map",INF,"cmd/coin2html/js/src/account.ts:loadAccounts","account.go:MarshalJSON","coin.go:ResolveAccounts")
p("C118","The page has the whole ledger","For every loaded ledger coin2html's page loads, and holds the same commodities, the same prices each followed by its reverse, the same accounts, and the same transactions in the same order with the same dates, texts, quantities, balances, notes and tags; its initial date range runs from a first of January to a 31st of December and contains every transaction.","all loaded ledgers",INF,"cmd/coin2html/main.go:main","cmd/coin2html/js/src/ui.ts:initializeUI","cmd/coin2html/js/src/account.ts:loadTransactions","cmd/coin2html/js/src/commodity.ts:loadPrices","transaction.go:MarshalJSON","posting.go:MarshalJSON","price.go:MarshalJSON","commodity.go:MarshalJSON")
p("C119","Dates on the page","Whatever the time zone of the browser, the page shows a date of the ledger as that day, and a range of days entered by the user keeps exactly the postings from the first to the last day.","all zone offsets, dates, ranges and posting lists",INF,"cmd/coin2html/js/src/utils.ts:dateToString,trimToDateRange","cmd/coin2html/js/src/ui.ts:initializeUI")
p("C120","Register of an account","The page's register of an account lists exactly the postings of the account dated in the range, in order, each with its date, description, other account, quantity and balance, and with the sum of all quantities listed so far; it is shown whenever every posting has one on the other side.","all accounts, ranges and loaded transactions",INF,"cmd/coin2html/js/src/viewsRegister.ts:viewRegisterFull,renderPostings")
p("C121","The account on the other side","In a loaded ledger every posting has a posting on the other side in its transaction (the first other posting of another sign), so that every register can be shown.","all loaded ledgers, all postings",INF,"cmd/coin2html/js/src/account.ts:Transaction.other")
p("C122","Balances on the page","At the end of a day the page's balance of an account is the sum of the quantities of its postings up to that day, when all asserted balances were found to be right.","all loaded ledgers, accounts and days",INF,"cmd/coin2html/js/src/account.ts:Account.balanceAt","check.go","transaction.go:Transactions.Less")
p("C123","Lists of subaccounts","The page's list of subaccounts of an account has every account whose full name extends it exactly once, after its parent, except those that are closed by the end of the range (unless closed accounts are shown) or excluded and all accounts below such ones.","all loaded trees of accounts, all accounts, dates and settings",INF,"cmd/coin2html/js/src/account.ts:Account.allChildren")
p("C124","Totals of balances on the page","For an account and each account below it that is neither closed (itself or through an account above) nor excluded, the page has the balance at the date and as total the sum of the balances of the account and of all accounts listed below it.","all loaded trees, transactions, dates",INF,"cmd/coin2html/js/src/account.ts:Account.withAllChildBalances,isClosed")
p("C125","Table of balances","The table of balances has a row for the selected account and for each open account at most the chosen number of levels below it, and no other; a row's total includes the accounts that are too deep to be shown.","all loaded trees, transactions, depths, dates",INF,"cmd/coin2html/js/src/viewsBalances.ts:viewBalances","cmd/coin2html/js/src/account.ts:Account.depthFrom")
p("C126","Register with subaccounts","The register with subaccounts lists all postings of the account and of the open accounts below it dated in the range, each once, in order of date, with the running sum of the quantities.","all loaded trees, transactions, ranges",INF,"cmd/coin2html/js/src/account.ts:Account.withAllChildPostings","cmd/coin2html/js/src/viewsRegister.ts:viewRegisterFullWithSubAccounts,renderPostingsWithSubAccounts")
p("C127","Path of an account","The path shown for an account has exactly the accounts above it, from the top level down to itself, each the parent of the next.","all loaded trees and accounts",INF,"cmd/coin2html/js/src/account.ts:Account.withAllParents,getRootAccount")
p("C128","Every account can be viewed","The page of a loaded ledger opens, and every account of the ledger can be selected and viewed.","all loaded trees and accounts",INF,"cmd/coin2html/js/src/views.ts:Views,updateView","cmd/coin2html/js/src/ui.ts:initializeUI")
p("C129","Aggregated register","The page's register aggregated by weeks, months, quarters or years has one row for each period starting between the two dates, in order, with the sum of the quantities of the account's postings of the period (those whose last period start on or before their day is the row's) and with the sum of all rows so far; no posting is in two rows.","all loaded transactions, accounts, periods and ranges",INF,"cmd/coin2html/js/src/utils.ts:groupBy","cmd/coin2html/js/src/viewsRegister.ts:viewRegisterAggregated","cmd/coin2html/js/src/views.ts:Aggregation")
p("C130","Aggregated registers are complete","The amounts of the rows of the aggregated register add up to the quantities of the account's postings between the two dates.","all loaded transactions, accounts, periods and ranges",INF,"cmd/coin2html/js/src/utils.ts:groupBy","cmd/coin2html/js/src/viewsRegister.ts:viewRegisterAggregated")
p("C131","Aggregated balances","With style Balances a row of the aggregated register shows the balance of the account at the end of the row's period.","all loaded transactions, accounts, periods and ranges",INF,"cmd/coin2html/js/src/utils.ts:groupBy,balanceOrSum","cmd/coin2html/js/src/viewsRegister.ts:viewRegisterAggregated")
p("C132","Columns of subaccounts","The aggregated register with subaccounts has a column for each account of the subtree with postings, largest first, at most the chosen number, the last standing for all the others, and in every row the cells add up to all the postings of the subtree of that period.","all loaded trees, transactions, periods, ranges and numbers of columns",INF,"cmd/coin2html/js/src/utils.ts:groupByWithSubAccounts,sumAll","cmd/coin2html/js/src/account.ts:Account.withAllChildPostingGroups")
p("C133","Totals of the register with subaccounts","In the aggregated register with subaccounts a row's total is the sum of its cells and, for flows, of all postings of the subtree in its period, and its cumulative total is the sum of the totals so far.","all loaded trees, transactions, periods, ranges and numbers of columns",INF,"cmd/coin2html/js/src/viewsRegister.ts:viewRegisterAggregatedWithSubAccounts")
p("C134","Details of a group","The details of a group show its largest postings, largest first: no posting left out is larger than one shown, and all are shown when there are few.","all groups of postings, commodities and prices",INF,"cmd/coin2html/js/src/utils.ts:topN")
p("C135","Bars of the chart","In the register chart the bars of a period lie end to end without overlap in the order of the columns, each as long as the whole part of its amount.","all columns, periods and amounts",INF,"cmd/coin2html/js/src/viewsAggregatedRegisterChart.ts:widthFromGroup")
p("C136","The period chosen for a range","When the dates change while a register is aggregated the page chooses a period so that there are at most 26 rows for ranges below five years, and longer ranges are never cut finer.","all ranges",INF,"cmd/coin2html/js/src/views.ts:updateAggregationForTimeRange")
p("C137","Balance output","The balance command prints one line per account of its report, in order: own total, cumulative total, commodity and full name, the amounts right adjusted in columns of the same width on all lines, the commodity left adjusted.","all ledgers, filters and options",INF,"cmd/coin/balance.go:cmdBalance.print,maxWidth,curWidth","amount.go:Amount.Format,Amount.Width")
p("C138","Register output","The register command prints the account, then one line per selected posting with its date, description, accounts, amount, running total, commodity and whether a balance was asserted, followed by its notes when asked for; the columns have the same widths on all lines.","all ledgers, filters and options",INF,"cmd/coin/postings.go:postings.print,printLong,widths,printNotes","cmd/coin/register.go:cmdRegister.execute,fullRegister")
p("C139","Table of the aggregated register","The aggregated register prints the labels of the columns and one line per period and category with all amounts, and every column has the same width on all lines.","all ledgers, filters, periods, categories and options",INF,"cmd/coin/totals.go:cumulative.print,widths,maxWidth,maxPeriodWidth,maxCategoryWidth")
p("C140","CSV output reads back","What register writes with -o csv reads back, whatever is in descriptions and names, as a header and one record per period and category with its date, its category and the exact amounts of the columns.","all ledgers, filters, periods, categories, columns and strings",INF,"cmd/coin/totals.go:cumulative.rows,rows.writeCSV")
p("C141","JSON output reads back","What register writes with -o json is one JSON array per line that reads back, whatever is in descriptions and names, as the same header and records.","all ledgers, filters, periods, categories, columns and strings",INF,"cmd/coin/totals.go:cumulative.rows,rows.writeJSON")
p("C142","Prices in the other direction","For every price of a commodity the page also knows the price of its currency: of the same date and the reciprocal value, to within a smallest unit.","all non-zero prices",INF,"cmd/coin2html/js/src/commodity.ts:Price.reverse,Amount.reciprocal")
p("C143","There and back","On the page, converting an amount by a price and back by the price in the other direction gives the amount again to within a smallest unit.","all amounts and prices",INF,"cmd/coin2html/js/src/commodity.ts:Amount.convertTo,Price.reverse,Amount.reciprocal")
p("C144","Names in the register","When names are not shortened, different accounts are shown under different names in a register.","all accounts",INF,"cmd/coin/postings.go:postings.print,printLong","cmd/coin/register.go:cmdRegister.fullRegister")
p("C145","Balances over several commodities","Whenever balance prints something, whatever commodities the postings are in: an account's own total is the sum of what its selected postings are worth in the account's commodity, its cumulative total is its own total plus what the cumulative totals of the accounts directly below it are worth in that commodity, and with direct prices the error is at most one smallest unit per converted amount.","all ledgers, prices, filters, accounts and levels",INF,"cmd/coin/balance.go:cmdBalance.execute","cmd/coin/totals.go","amount.go:Amount.AddIn","price.go")
p("C146","Registers over several commodities","Whenever register prints something, whatever commodities the postings are in, the running total of a row is the sum of what the postings up to it are worth in the commodity of the account.","all ledgers, prices, filters and accounts",INF,"cmd/coin/register.go:cmdRegister.fullRegister","cmd/coin/postings.go","amount.go:Amount.AddIn")
p("C147","What is loaded survives being written","Whatever text was loaded, provided no commodity is declared twice in it: writing what was loaded with the program's own output of transactions, accounts, prices and commodities and reading that again gives the same transactions, accounts, prices and commodities (but for the symbol of a commodity, which is not written). For transactions: those of the years 100 to 9999 with at least one posting, whose description and notes do not end in a carriage return, with notes only under a description and not indented further than the program indents them, and whose amounts have at most 50 decimals and fit 64 bits when written out.","all source texts that load",INF,"transaction.go:Transaction.Write","account.go:Account.Write","price.go:Price.Write","commodity.go:Commodity.Write","parser.go","amount.go:parseAmount")
p("C148","What format writes is accepted again and final","The output of format is accepted by format again, and formatting it again changes nothing, whatever the file looked like at first.","all ledger files format accepts",INF,"cmd/coin/format.go","transaction.go:Transaction.Write","parser.go","amount.go:parseAmount")
p("C149","The page over several commodities","Whatever commodities the postings and accounts are in, whenever a view of the page is shown: the totals of the register and of the register with subaccounts are the sums of what the postings so far are worth in the commodity of the account, those of the aggregated registers the sums of what the postings of the period, or the columns, are worth at the start of the period, and the total of an account in the table of balances is its balance and what the totals of the accounts directly below it are worth. With a price between the two commodities an amount is worth the amount times that price, rounded half up.","all postings, prices, accounts, dates and aggregations",INF,"cmd/coin2html/js/src/commodity.ts:convert,addIn","cmd/coin2html/js/src/account.ts:withAllChildBalances","cmd/coin2html/js/src/utils.ts:groupBy,groupByWithSubAccounts","cmd/coin2html/js/src/viewsRegister.ts")
p("C150","Every file of a ledger that loads can be formatted","A file that coin loads and whose transactions resolve can be rewritten by format and modify, whatever else it declares; several files given to one run are each rewritten as if they were the only one.","all ledger files and sequences of files in one run",INF,"cmd/coin/format.go:execute","cmd/coin/modify.go:execute","coin.go:Load","coin.go:ResolveAccounts","coin.go:ResolveTransactions","transaction.go:Transaction.Write")
p("C151","Long lines of a ledger","A ledger that loads has been read whole: a file with a line too long for the reader is refused, and never cut short or skipped, wherever the line is and whatever it contains.","all ledgers, all lengths and positions of lines",INF,"parser.go:Parser.Scan","parser.go:Next","coin.go:Load","transaction.go:parseTransaction","price.go:parsePrice","include.go:parseInclude")
p("C152","Long lines of rule files","Rules that are accepted have been read whole: a rule file with a line too long for the reader is refused.","all rule files, all lengths and positions of lines",INF,"rules.go:ReadRules","rules.go:ScanRules","cmd/csv2coin/rules.go:ReadRules")
p("C153","Flags in any spelling and order","A command line is accepted exactly when it consists of settings of the command's flags, each written with one or two dashes, as -x=v, as -x v or, for a switch, as -x, with a value the flag accepts, followed by the arguments, with or without -- between; which of the command's names, spellings and orders is used makes no difference to the report, and of several settings of a flag the last counts.","all argument lists, all commands",INF,"cmd/coin/main.go:main,newCommand","cmd/coin/balance.go:newCommand","cmd/coin/register.go:newCommand,period,category")
p("C154","Flags behind the account","Flags count whether they are given before or behind the account.","all argument lists",INF,"cmd/coin/main.go:main","cmd/coin/balance.go:execute","cmd/coin/register.go:init")
p("C155","The command may be left out","Without a command balance is run, with the flags and account given.","all argument lists",INF,"cmd/coin/main.go:main")
p("C156","From the files to the balance report","For a ledger of one commodity, what balance prints is determined by the files: each account's own total is the sum of the amounts the files state or leave out (then what balances the transaction) for postings whose account name means that account and that pass the filters; the cumulative total adds those of all accounts below; one aligned line for each account at or below the account asked for within the level, with a nonzero cumulative total or under -z, parents first; and it is printed whenever the ledger opens, the account is found, the filters are valid and no total exceeds 50 digits.","all directories of ledger files that load, all arguments of the balance command, all enumeration orders of maps and outcomes of sort",INF,"coin.go:LoadAll,ResolveAll,ResolvePrices,ResolveAccounts,ResolveTransactions","cmd/coin/main.go:main","cmd/coin/balance.go:execute,print")
p("C157","From the files to the register","Whenever register prints something, whatever commodities the ledger has and unless an aggregated register is asked for: it prints the account and one line, under -n followed by the notes, for every posting of the files whose account name means the account asked for (with -r this account or one below it) and that passes the filters, in date order, with date, description, other account, the amount written (or, if left out, the one that balances the transaction) and the running total of what the amounts so far are worth in the account's commodity.","all directories of ledger files that load, all arguments of the register command without -w -m -q -y -bp -bt (with -r and a payee pattern not inverted by !), all enumeration orders of maps and outcomes of sort",INF,"coin.go:LoadAll,ResolveAll","cmd/coin/main.go:main","cmd/coin/register.go:execute,fullRegister,subRegister","cmd/coin/postings.go:print,printLong")
p("C158","The unit on a register line","The commodity named on a line of the register is the one its running total is in.","all ledgers that load, all arguments of the register command",INF,"cmd/coin/postings.go:print,printLong","cmd/coin/register.go:fullRegister")
p("C159","What a commodity declaration means","A commodity declaration in any layout (tabs or blanks, settings in any order, repeated settings) declares the named commodity with the last setting of each kind, two decimals unless a format says otherwise, and makes it the default commodity exactly when one of its lines says so.","all names, layouts, orders and numbers of settings, all lines that follow",INF,"commodity.go:parseCommodity,commodityBodyREX","parser.go:Next","coin.go:Load")
p("C160","What an account declaration means","An account declaration in any layout declares the named account with the last setting of each kind, in the default commodity in force unless it names another; notes of any length are kept.","all names, layouts, orders and numbers of settings, all lines that follow",INF,"account.go:parseAccount,accountBodyREX","parser.go:Next")
p("C161","What a price line means","A price line in any layout is the price of the named commodity on that day, exactly the number written, in the commodity written behind it.","all dates, names, numbers, gaps",INF,"price.go:parsePrice,priceREX","amount.go:parseAmount")
p("C162","What a transaction means","A transaction in any layout is read with its date, code, description, notes, and postings with exactly the amounts and asserted balances written; a note on a line of its own belongs to the posting above it, or to the transaction before the first posting; the transaction ends where a line starts at the margin.","all dates, codes, descriptions, notes, postings, amounts, layouts, all lines that follow",INF,"transaction.go:parseTransaction,transactionREX,postingREX","amount.go:parseAmount")
p("C163","A ledger file means what its declarations say","A file of blank lines, comments, declarations, prices, transactions, tests and includes, each in any layout, is loaded as what they declare, in order, with the contents of included files in the place of the include.","all such files, nested to any depth the open-file limit allows, from any state",INF,"coin.go:Load,LoadFile","parser.go:Next","include.go:Files","test.go:parseTest")
p("C164","Ledger-compatible output","With -ledger (format) or -l (gc2coin) a commodity whose id has a character special to ledger is written in double quotes, any other as it is; distinct commodities stay distinct, and records without special characters are written as without the flag, accounts without their bank ids.","all ids, transactions, accounts, commodities and prices",INF,"commodity.go:SafeId,Write","posting.go:Write","transaction.go:Write","account.go:Write","price.go:Write","amount.go:Write")
p("C165","Reading ledger-compatible output","What format -ledger writes is read back as the transactions it was written from.","all lists of transactions in canonical form, all loaded states",INF,"cmd/coin/format.go:execute","posting.go:Write","transaction.go:parseTransaction,postingREX","coin.go:ResolveTransactions")
p("C166","The account of a statement","An OFX statement is posted to the account its id is given for in the rules, else to the account declared with that id, else the import ends; the result of an import does not depend on the order in which the accounts happen to be walked.","all accounts, rule files, statements and orders of the account map",INF,"coin.go:FindAccountOfxId","rules.go:AccountRulesFor","cmd/ofx2coin/main.go:readTransactions,newTransaction")
p("C167","Listing of accounts with an OFX id","ofx2coin -ids prints exactly one line for each account with an OFX id, in the order of the account names, whatever the order of the map.","all sets of accounts, all orders of the account map",INF,"cmd/ofx2coin/main.go:main","coin.go:AccountsDo")
p("C168","gen2coin writes a ledger that opens","Whatever the random numbers, the dates and the way of splitting into files, gen2coin generates transactions that follow its rules in order of time – the payee, the accounts and the amount of a rule, or the balance of the receiving account divided by the rule's divisor – and writes a directory that coin opens, with one commodity and exactly the generated transactions in the order generated.","all random numbers, all pairs of dates in the years 100 to 9999, all three ways of splitting, all orders of the maps, all directories without coin files, up to 15000 transactions for the part about opening",INF,"cmd/gen2coin/main.go:main","cmd/gen2coin/rules_personal.go:personal","cmd/gen2coin/rule.go:generatePostings","coin.go:LoadAll")
p("C169","Aggregated register from the files to the output","coin register with -w, -m, -q, -y, -bp or -bt prints, in the format asked for, one column for every account of the subtree with a selected posting in or below it, ordered by the size of their totals, and one row for every period and category in which such a posting falls, in order; in each cell stands the exact sum of the amounts the files state or leave out for the account (with -r including those below, with -c up to the period).","all directories of one commodity, all command lines in every spelling of the flags, all filters, all outcomes of the sorts, every -g that leaves no account out",INF,"cmd/coin/register.go:aggregatedRegister,execute","cmd/coin/totals.go:output,top,mergeTime,rows","coin.go:LoadAll")
p("C170","Accounts command from the files to the output","coin accounts writes one line for every account of the ledger - each declared one, each ancestor of one, Root and Unbalanced - that the pattern selects and that is not closed (all selected ones with -c), in increasing order of names, aligned, with commodity and description of the last declaration; these are the accounts the reports of the same ledger know.","all directories, all command lines in every spelling of the flags, all patterns, all orders in which maps are walked",INF,"cmd/coin/accounts.go:execute,init","coin.go:LoadFile,ResolveAccounts,AccountsDo")
p("C171","Tags command from the files to the output","coin tags prints one entry for every tag key that some transaction or posting of the files carries and that the expression, if given, matches, in increasing order; with -v the distinct non-empty values of the key in increasing order; with -a the accounts of the postings that carry the key or whose transaction does, in report order, each once. An expression that is not a regular expression ends the program.","all directories that load, all command lines in every spelling of the flags, all orders in which maps are walked",INF,"cmd/coin/tags.go:execute,collectKeys","coin.go:LoadAll")
p("C172","Stats command from the files to the output","coin stats -d prints every pair of transactions dated in [begin, end) that say the same (day, code, the same numbers in the same accounts), each once, earlier first, with place and text of both, and nothing else. Otherwise it prints, transaction by transaction in report order, with -c a line for each whose two postings have opposite numbers in different commodities, with -u place and text per posting to Unbalanced, and then the numbers of commodities declared, prices, accounts, and transactions in the range.","all directories that load, all command lines in every spelling of the flags, all orders in which maps are walked",INF,"cmd/coin/stats.go:execute,transactions","transaction.go:String,IsEqual","coin.go:LoadAll")
p("C173","Commodities command from the files to the output","coin commodities lists the commodities declared in the commodities file, for each id the last one declared under it, once, in increasing order of ids, with a Q exactly for those with a symbol that are not marked nomarket. coin commodities X prints every price of X in the prices files once, those in one currency together and latest first, with -f each with its place; an id that is not declared prints nothing. coin commodities -p lists the ids, each with the latest price in every currency and the number of prices in it.","all directories that load, all command lines in every spelling of the flags, all orders in which maps are walked and in which equal dates are sorted",INF,"cmd/coin/commodities.go:init,execute","commodity.go:String,CommoditiesDo","coin.go:LoadPrices,ResolvePrices")
p("C174","Test command with the commands its tests run","coin test -v FILE reports on every test of the file in order: OK exactly if the recorded text is what the command line of the test prints on the ledger of this file, otherwise FAIL and the difference; without -v only the failing ones and one verdict, which is OK exactly if there are none. No file changes unless a test has no result; such a test gets exactly the text its command prints. That text is the one coin prints for the same command line on the same ledger. A test that runs the test command never ends.","all files that load with what they include, all command lines in every spelling of the flags, all tests of the modelled commands, all texts they print",INF,"cmd/coin/test.go:init,execute,updateTestFile","test.go:Test","coin.go:Load,ResolveAll")
p("C175","The same files give the same report","Running coin balance or coin register twice with the same arguments on unchanged files prints the same text both times. The order in which Go visits maps and the order in which sort.Slice leaves equal elements have no effect on it.","all directories that load, all pairs of loads of one directory in any map order and any outcome of the unstable sorts, all command lines of balance and register",INF,"coin.go:LoadAll,ResolveAll,ResolveAccounts,ResolvePrices","commodity.go:convert","cmd/coin/balance.go:execute","cmd/coin/register.go:execute")
p("C176","Formatting a file in place changes no report","After coin format -i FILE of one of the ledger's transaction files, which is meant to change layout only, coin balance and coin register print with every argument what they printed before.","all directories that load, all files of transactions in them that no other file includes, all arguments of balance and register","a test formats one file and runs one report; order of transactions, completed amounts and full account names interact with every filter and every assertion in the rest of the ledger","cmd/coin/format.go:cmdFormat.execute,writeTransactions","transaction.go:TransactionsByTime.Less,Transaction.Write","coin.go:LoadAll,ResolveTransactions","cmd/coin/balance.go","cmd/coin/register.go")
p("C177","The balance report to the character","coin balance prints for a ledger in one commodity exactly one text: the accounts at or below the one asked for that -l and -z leave, ordered by name part by part with Root first; own and cumulative total right-adjusted in columns as wide as the longest total of all accounts at or below it (printed or not); commodity and full name.","all directories that load in one commodity, all command lines of balance","a test compares one layout; widths and order depend on every amount and every name in the ledger, also on accounts that are not printed","cmd/coin/balance.go:cmdBalance.execute,print,maxWidth,curWidth","coin.go:ResolveAccounts","amount.go:Width,Format")
p("C178","The register to the character","Whenever coin register prints anything (without -w -m -q -y), it prints exactly one text: the heading with account and commodity unless -o asks for another format, then the postings of the account asked for (with -r also of those below it) that the filters leave, by day and within a day account by account in name order, each in the order of the file; date, payee, counter account, amount and running total, padded on the left: payees to the longest of them but at most 50 characters, accounts to the longest but at most what -l gives, amounts to the longest, totals to the length of the last one; commodity of the posting's account, a star behind an asserted balance, notes below with -n.","all directories that load in any number of commodities, all command lines of register without aggregation (with -r: no inverted payee filter), all prices","a test compares one layout; the widths, the order and the running totals depend on every posting printed","cmd/coin/register.go:cmdRegister.execute,flatRegister,fullRegister","posting.go:Print,PrintPostings,printLine","coin.go:ResolveTransactions","amount.go:Width,Format")
p("C179","coin modify moves money only between the accounts named","coin modify FLAGS FILE of one of the ledger's transaction files leaves a ledger that loads with the same items, those of the file completed and changed as the flags say. With -a A -a: B (and -p, -tt) the own total of B grows, and that of A shrinks, under every filter without -t, by the sum of the first postings of A in the transactions of the file that -p and -tt select; no other account's total changes; under all flags the totals of all accounts together stay the same; without -a: no balance report changes; and when nothing is changed the file is what format -i writes.","all directories that load in one commodity, all files of transactions in them that no other file includes, all command lines of modify, all date and payee filters","a test modifies one file and compares text; what is selected, moved and tagged depends on every transaction, and what the reports show on every filter","cmd/coin/modify.go:cmdModify.init,execute,modify","coin.go:LoadFile,ResolveTransactions","cmd/coin/utils.go:mustParseTags,newTagMatcher")
p("C180","modify reports how many transactions it changed","coin modify FLAGS FILE prints on the standard error \"Updated N transactions in FILE\", where N is the number of transactions of the file that it changed.","all directories, all command lines of modify with one file that run","tests ignore the standard error","cmd/coin/modify.go:cmdModify.execute,modify,modifyPosting")
p("C181","format and modify take their files one by one","coin format and coin modify with several files do what the same command does with the first file and then, started anew, with the others: the same files, the same text printed. Without -i coin format changes no file and prints for each file what format -i with the same flags writes into it.","all directories, all files of transactions (also the same one twice), all command lines of format and modify","tests name one file; what one file leaves loaded can change how the next one is read and written","cmd/coin/format.go:cmdFormat.execute","cmd/coin/modify.go:cmdModify.execute","transaction.go:DropTransactions")
p("C182","A downloaded price is recorded as quoted","A price quoted with at most as many decimals as its currency is recorded as it is; any quoted price is recorded to within one unit of the last decimal.","all float64 prices below 2^62 units, all currencies of up to 18 decimals","tests try a few prices; which ones survive multiplication by a power of ten in binary follows no pattern","commodity.go:Commodity.NewAmountFloat","cmd/coin/commodities.go:cmdCommodities.execute")
p("C183","coin commodities -q prints a price for every commodity on the market","coin commodities -q prints one price line of today for every commodity that is traded on a market and is not the default one, in order of the ids, or says on the standard error why there is none; the printed lines kept in a file are loaded as these prices.","all ledgers, all answers of the quote service","needs the network; a test would fix the answers of the service","cmd/coin/commodities.go:cmdCommodities.execute","price.go:Parser.parsePrice")
p("C184","The balances chart shows the accounts of the balances table","The balances chart of the page is always drawn and has one box for the selected account and for every account below it that the table shows with the same depth setting, and each box tells the account's total.","all account trees, ledgers, dates, depths, normal and negated views","a test would draw a few trees","cmd/coin2html/js/src/viewsBalancesChart.ts:viewBalancesChart","cmd/coin2html/js/src/account.ts:Account.withAllChildBalances")
p("C185","The boxes of the balances chart are as big as their totals","The value that decides the area of a box of the balances chart is the account's total over all accounts below it, also those too deep to be shown, as far as it is in the normal direction.","all account trees, ledgers, dates, depths, normal and negated views","a test would draw a few trees","cmd/coin2html/js/src/viewsBalancesChart.ts:viewBalancesChart")
p("C186","Tests do not depend on each other","In coin test every test of modify or format prints what it would print if it were the only test of the ledger, whatever tests come before it.","all ledgers, all sequences of tests of modify and format","the tests of a file run in one order only","cmd/coin/test.go:cmdTest.execute","cmd/coin/modify.go:cmdModify.execute","cmd/coin/format.go:cmdFormat.execute")
p("C187","A test of modify or format shows what the command writes","A test of modify prints exactly the text that modify with the same flags writes into a file with the same transactions, and a test of format the text that format makes of such a file; the test succeeds exactly when the command does.","all files of transactions, all flags","a test would compare a few commands","cmd/coin/test.go:cmdTest.execute","cmd/coin/modify.go:cmdModify.execute","cmd/coin/format.go:cmdFormat.execute")
p("C188","The balance report over any commodities to the character","coin balance prints over any commodities exactly one text for given prices: the accounts at or below the one asked for that -l and -z leave, ordered by name part by part with Root first; own and cumulative total, each in the account's commodity with the others converted into it, right-adjusted in columns as wide as the longest total of all accounts at or below it (printed or not); the commodity padded to the bytes of the longest one; the full name.","all directories that load, all prices, all command lines of balance","a test compares one layout; widths, order and conversions depend on every amount, price and name in the ledger, also on accounts that are not printed","cmd/coin/balance.go:cmdBalance.execute,print,maxWidth,curWidth","coin.go:ResolveAccounts","amount.go:Width,Format,AddIn")
p("C189","The register is always printed","coin register prints its report (it neither crashes nor refuses) for every account that is found and every valid filter, in a ledger of one commodity in which every transaction has at least two postings and the amounts add up to less than fifty digits.","all directories that load in one commodity and all command lines of register without aggregation that meet these conditions","a test runs a few reports; a crash depends on transactions, widths and accounts in the whole ledger","cmd/coin/register.go:cmdRegister.execute,fullRegister","cmd/coin/postings.go:print,printLong,widths","amount.go:Width,Format")
p("C190","The register and the balance report agree","For a directory in one commodity: with the same filters and the same account, the running total in which coin register ends is the own total on the first line of coin balance -z, and with -r it is the cumulative total there.","all directories that load in one commodity, all accounts and all command lines of the two commands with equal filters, register without aggregation, notes and locations","each report is tested on its own; that two different programs over two different data structures agree is a statement about all ledgers and filters","cmd/coin/register.go:cmdRegister.execute,fullRegister","cmd/coin/balance.go:cmdBalance.execute","cmd/coin/postings.go:print,printLong,totals")
p("C191","The aggregated register adds up to the balance report","For a directory in one commodity: with the same filters, the amounts in the column that coin register -w, -m, -q, -y, -bp or -bt prints for an account add up to the total that coin balance -z shows for the account (its own total; with -r for the register, its cumulative total), and accounts without a column show zero there.","all directories that load in one commodity, all accounts and all command lines of the two commands with equal filters, any grouping, output format and order of equal columns, every -g that leaves no account out","the two reports group the postings by different programs; that no posting is dropped or counted twice by one of them is a statement about all ledgers","cmd/coin/register.go:cmdRegister.execute,aggregatedRegister","cmd/coin/balance.go:cmdBalance.execute","cmd/coin/totals.go:timeTotals.add,mergeTotals,accountTotals.rows")
p("C192","Balances over adjoining ranges of dates add up","For a directory in one commodity: coin balance -z -e d and coin balance -z -b d, with the same other filters, show for every account own and cumulative totals that add up to those of the report without the division at d; postings on the day d are counted once, in the second.","all directories that load in one commodity, all accounts, all dates and all command lines of the three reports with otherwise equal filters","a test looks at a few dates; that the boundary day is neither lost nor counted twice for any order of the transactions is a statement about all ledgers","cmd/coin/balance.go:cmdBalance.execute,trim","cmd/coin/utils.go:trim")
p("C193","The page and the balance report agree","For a directory in one commodity, whose amounts add up to at most 2^53 units: the register that coin2html's page shows of an account for a range of dates ends in the own total that coin balance -z shows for the account and the same dates, whatever order the two programs walk their maps in.","all directories that load in one commodity, all accounts, all ranges of dates, all command lines of balance that filter by date only, all map orders and sorts of the two programs","one program is written in Go, the other in JavaScript over exported JSON; that they agree is a statement about all ledgers","cmd/coin2html/main.go:main","cmd/coin2html/js/src/viewsRegister.ts:viewRegisterFull","cmd/coin/balance.go:cmdBalance.execute","coin.go:LoadAll,ResolveTransactions")
p("C194","The books balance","For a directory in one commodity: coin balance -z of all accounts shows the cumulative total zero on the line of Root, whatever dates and payees are selected.","all directories that load in one commodity, all date and payee filters, levels and spellings of the command line","the zero is a sum over all transactions, those with amounts left out included; a test adds up one ledger","cmd/coin/balance.go:cmdBalance.execute","coin.go:ResolveTransactions","cmd/coin/utils.go:trim")
p("C195","The page's register with subaccounts ends in the cumulative total","For a directory in one commodity: the register of an account with its subaccounts on the page, over a range of dates, ends in the cumulative total that coin balance -z shows for the account and the same dates, as long as no account below it is hidden.","all directories that load in one commodity (amounts adding up to at most 2^53 units), all accounts but Root, ranges, time zones, orders in which maps are enumerated","two programs in two languages find the accounts below in different ways, by links and by names","cmd/coin2html/js/src/account.ts:withAllChildPostings","cmd/coin2html/js/src/viewsRegister.ts:viewRegisterFullWithSubAccounts","cmd/coin/balance.go:cmdBalance.execute")
p("C196","The page's table of balances agrees with the balance report","For a directory in one commodity without asserted balances: every row of the page's table of balances at the end of a day shows the own and the cumulative total that coin balance -z shows for the account up to that day, as long as no account below is hidden.","all directories that load in one commodity (amounts adding up to at most 2^53 units) without asserted balances, all accounts but Root, days, depths, orders in which maps are enumerated","the page takes balances that were stored with the postings and adds them up along its tree, coin selects postings and adds them up by names","cmd/coin2html/js/src/viewsBalances.ts:viewBalances","cmd/coin2html/js/src/account.ts:balanceAt,withAllChildBalances","cmd/coin/balance.go:cmdBalance.execute")
p("C197","The register explains the change of the balance on the page","On the page of a directory in one commodity without asserted balances, the balance of an account at the end of a day is its balance before the first day of a range ending there plus the total on the last row of its register for the range.","all directories that load in one commodity (amounts adding up to at most 2^53 units) without asserted balances, all accounts, ranges of days, time zones","balances are stored with the postings when the files are loaded, the register adds up quantities in the browser; a test compares them on one range","cmd/coin2html/js/src/viewsRegister.ts:viewRegisterFull","cmd/coin2html/js/src/account.ts:balanceAt")
p("C198","Levels and the account asked for choose lines, not numbers","For a directory in one commodity: two balance reports (-z) for the same dates, payees and tags show an account with the same own and cumulative totals, whatever levels and accounts they are asked for, if both show it.","all directories that load in one commodity, all pairs of command lines with the same filters, all accounts","the totals of accounts below the level are left out of the report but not of the sums","cmd/coin/balance.go:cmdBalance.execute","cmd/coin/utils.go:trim")
p("C199","The balances on the page add up to zero","On the page of a directory in one commodity without asserted balances and without postings to Root, the balances of all accounts at the end of any day add up to zero.","all directories that load in one commodity without asserted balances or postings to Root, all days","the zero is a sum over all accounts of balances stored with different postings","cmd/coin2html/js/src/account.ts:balanceAt,loadAccounts","cmd/coin2html/main.go:main","coin.go:ResolveTransactions")
open('/verif/properties.jsonl','w').write("".join(json.dumps(x)+"\n" for x in P))
print(len(P))
