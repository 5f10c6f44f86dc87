import Verif.Lemmas.Basic
import Verif.Lemmas.Amount
import Verif.Props.Amount
import Verif.Model.Amount
import Verif.Lemmas.Convert
import Verif.Props.Convert
import Verif.Lemmas.Postings
import Verif.Props.Postings
import Verif.Lemmas.Sort
import Verif.Lemmas.Accounts
import Verif.Props.Accounts
import Verif.Lemmas.Ledger
import Verif.Props.Ledger
import Verif.Props.Range
import Verif.Props.Balance
import Verif.Model.Totals
import Verif.Model.Register
import Verif.Lemmas.Totals
import Verif.Lemmas.Aggregate
import Verif.Props.Register
import Verif.Props.Aggregate
import Verif.Go.Calendar
import Verif.Lemmas.Calendar
import Verif.Model.Periods
import Verif.Props.Periods
import Verif.Go.Regex
import Verif.Lemmas.Regex
import Verif.Lemmas.RunsTo
import Verif.Model.Date
import Verif.Lemmas.Date
import Verif.Props.Date
import Verif.Model.Parser
import Verif.Model.Writer
import Verif.Lemmas.Parser
import Verif.Props.RoundTrip
import Verif.Model.Tags
import Verif.Props.Tags
import Verif.Model.Format
import Verif.Lemmas.Format
import Verif.Props.Format
import Verif.Props.Modify
import Verif.Lemmas.Groups
import Verif.Props.Parsing
import Verif.Props.ReadBack
import Verif.Model.Rules
import Verif.Model.Import
import Verif.Model.Stats
import Verif.Props.Import
import Verif.Props.ImportFile
import Verif.Props.Rules
import Verif.Props.Stats
import Verif.Model.Load
import Verif.Lemmas.Load
import Verif.Props.Load
import Verif.Model.Pattern
import Verif.Props.Pattern
import Verif.Props.Writer
import Verif.Model.Generate
import Verif.Lemmas.Generate
import Verif.Props.Generate
import Verif.Model.TagsCmd
import Verif.Props.TagsCmd
import Verif.Model.TestCmd
import Verif.Props.TestCmd
import Verif.Props.TestFill
import Verif.Model.Csv
import Verif.Props.Csv
import Verif.Props.CsvFile
import Verif.Props.CsvRules
import Verif.Model.Bmo
import Verif.Props.Bmo
import Verif.Model.ListCmd
import Verif.Props.ListCmd
import Verif.Model.Gnucash
import Verif.Props.Gnucash
import Verif.Props.GcFiles
import Verif.Props.GcTxns
import Verif.Props.GcLoad
import Verif.Props.WebAmount
import Verif.Props.WebConvert
import Verif.Props.WebSearch
import Verif.Props.WebChain
import Verif.Props.PageLoad
import Verif.Props.ViewBalance
import Verif.Props.ViewTree
import Verif.Lemmas.Double
import Verif.Model.ViewGroup
import Verif.Props.ViewGroup
import Verif.Props.ViewColumns
import Verif.Model.TextOut
import Verif.Props.TextOut
import Verif.Props.TableOut
import Verif.Props.PlainOut
import Verif.Props.Reverse
import Verif.Props.RegNames
import Verif.Props.Multi
import Verif.Props.Parsed
import Verif.Props.WebMulti
import Verif.Props.FormatOwn
import Verif.Props.Scanner
import Verif.Props.RulesDump
import Verif.Props.CommandLine
import Verif.Props.Program
import Verif.Props.ProgramAny
import Verif.Props.ProgramAgg
import Verif.Props.Syntax
import Verif.Props.SyntaxTxn
import Verif.Props.LedgerOut
import Verif.Props.OfxIds
import Verif.Model.GenWrite
import Verif.Props.GenSetup
import Verif.Props.GenWrite
import Verif.Props.GenLoad
import Verif.Props.TagExpr
import Verif.Model.Reports
import Verif.Model.Quotes
import Verif.Props.Reports
import Verif.Props.ReportTags
import Verif.Props.ReportStats
import Verif.Props.ReportComs
import Verif.Props.Quotes
import Verif.Props.TestMain
import Verif.Props.DateCut
import Verif.Props.Reproduce
import Verif.Props.FormatKeeps
import Verif.Props.BalanceText
import Verif.Props.BalanceTextAny
import Verif.Props.RegisterText
import Verif.Props.RegisterPrints
import Verif.Props.Agree
import Verif.Props.AgreeAgg
import Verif.Props.Ranges
import Verif.Props.Books
import Verif.Props.PageAgree
import Verif.Props.RegisterKeeps
import Verif.Props.ModifyKeeps
import Verif.Props.ModifyCount
import Verif.Props.OneByOne
import Verif.Props.Chart
import Verif.Props.TestWrites
import Verif.Props.PageFamily
import Verif.Props.PageTable
import Verif.Props.PageTotals
import Verif.Props.Levels
import Verif.Props.PageBooks
