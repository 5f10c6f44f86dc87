{
 "claims": [
  {
   "property": "C01",
   "status": "proved",
   "theorems": [
    "Verif.C01_print_parse",
    "Verif.C01_write_is_string"
   ],
   "note": ""
  },
  {
   "property": "C02",
   "status": "proved",
   "theorems": [
    "Verif.C02_parse_exact"
   ],
   "note": ""
  },
  {
   "property": "C03",
   "status": "partial",
   "theorems": [
    "Verif.C03_excess_digits_violated",
    "Verif.C03_excess_digits_partial",
    "Verif.C03_rounds_down",
    "Verif.C03_too_many_digits_panics"
   ],
   "note": "False for negative literals: big.Int.Div rounds toward minus infinity. Proved for non-negative literals, plus the exact behaviour for all signs."
  },
  {
   "property": "C04",
   "status": "proved",
   "theorems": [
    "Verif.C04_addin_exact"
   ],
   "note": ""
  },
  {
   "property": "C05",
   "status": "partial",
   "theorems": [
    "Verif.C05_conversion_error_violated",
    "Verif.C05_conversion_error_partial",
    "Verif.C05_failure_unchanged"
   ],
   "note": "One-unit bound is false when the source commodity has fewer decimals than the total; bound by the coarser unit proved."
  },
  {
   "property": "C06",
   "status": "partial",
   "theorems": [
    "Verif.C06_compare_violated",
    "Verif.C06_compare_partial",
    "Verif.C06_compare_antisymm_partial"
   ],
   "note": "False when the right operand has more decimals (truncated before comparing)."
  },
  {
   "property": "C07",
   "status": "proved",
   "theorems": [
    "Verif.C07_negated"
   ],
   "note": ""
  },
  {
   "property": "C08",
   "status": "proved",
   "theorems": [
    "Verif.C08_width",
    "Verif.C08_width_panics"
   ],
   "note": ""
  },
  {
   "property": "C09",
   "status": "proved",
   "theorems": [
    "Verif.C09_bigLog10",
    "Verif.C09_bigPow10",
    "Verif.C09_pow10",
    "Verif.C09_log10",
    "Verif.C09_setFraction"
   ],
   "note": ""
  },
  {
   "property": "C10",
   "status": "proved",
   "theorems": [
    "Verif.C10_frac_floor",
    "Verif.C10_frac_zero_den"
   ],
   "note": ""
  },
  {
   "property": "C11",
   "status": "partial",
   "theorems": [
    "Verif.C11_magnitude_violated",
    "Verif.C11_magnitude_partial"
   ],
   "note": "False across different decimals."
  },
  {
   "property": "C12",
   "status": "proved",
   "theorems": [
    "Verif.C12_convert_terminates"
   ],
   "note": ""
  },
  {
   "property": "C13",
   "status": "proved",
   "theorems": [
    "Verif.C13_convert_iff_path",
    "Verif.C16_loaded_prices_nonempty"
   ],
   "note": ""
  },
  {
   "property": "C14",
   "status": "partial",
   "theorems": [
    "Verif.C14_order_independent_violated",
    "Verif.C14_order_independent_partial"
   ],
   "note": "False with several price chains (DFS in map order); success, direct prices and single-currency tables proved order independent."
  },
  {
   "property": "C15",
   "status": "partial",
   "theorems": [
    "Verif.C15_target_commodity_violated",
    "Verif.C15_result_keeps_source_commodity",
    "Verif.C15_target_value_partial"
   ],
   "note": "False: the result keeps the source commodity; the number is right for direct prices with equal decimals."
  },
  {
   "property": "C16",
   "status": "proved",
   "theorems": [
    "Verif.C16_latest_price",
    "Verif.C16_permutation_invariant",
    "Verif.C16_loaded_prices_nonempty"
   ],
   "note": ""
  },
  {
   "property": "C17",
   "status": "proved",
   "theorems": [
    "Verif.C17_sorted_nodup"
   ],
   "note": ""
  },
  {
   "property": "C18",
   "status": "proved",
   "theorems": [
    "Verif.C18_add",
    "Verif.C18_delete",
    "Verif.C18_ties_in_arrival_order"
   ],
   "note": ""
  },
  {
   "property": "C19",
   "status": "proved",
   "theorems": [
    "Verif.C19_move_loses_nothing",
    "Verif.C19_listed_only_by_own_account"
   ],
   "note": ""
  },
  {
   "property": "C20",
   "status": "proved",
   "theorems": [
    "Verif.C20_one_tree",
    "Verif.C20_linking_succeeds"
   ],
   "note": ""
  },
  {
   "property": "C21",
   "status": "partial",
   "theorems": [
    "Verif.C21_exactly_missing_ancestors",
    "Verif.C21_declared_kept_violated",
    "Verif.C21_declared_kept_partial"
   ],
   "note": "The set of names is proved; a declared account named Unbalanced is replaced by a default one."
  },
  {
   "property": "C22",
   "status": "proved",
   "theorems": [
    "Verif.C22_closed_iff"
   ],
   "note": ""
  },
  {
   "property": "C23",
   "status": "partial",
   "theorems": [
    "Verif.C23_depth_violated",
    "Verif.C23_depth_partial"
   ],
   "note": "False for accounts declared as Root:x."
  },
  {
   "property": "C24",
   "status": "partial",
   "theorems": [
    "Verif.C24_ambiguous_violated",
    "Verif.C24_find_partial"
   ],
   "note": "False: only the first two matches are compared, by string prefix."
  },
  {
   "property": "C25",
   "status": "proved",
   "theorems": [
    "Verif.C25_shorten"
   ],
   "note": ""
  },
  {
   "property": "C26",
   "status": "proved",
   "theorems": [
    "Verif.C26_loaded_balanced"
   ],
   "note": ""
  },
  {
   "property": "C27",
   "status": "proved",
   "theorems": [
    "Verif.C27_transactions_accepted_iff",
    "Verif.C27_load_succeeds_iff"
   ],
   "note": "Panics/exits of currency conversion inside a sum are part of the first theorem's acceptance condition."
  },
  {
   "property": "C28",
   "status": "proved",
   "theorems": [
    "Verif.C28_elided_amount"
   ],
   "note": ""
  },
  {
   "property": "C29",
   "status": "proved",
   "theorems": [
    "Verif.C29_running_balances"
   ],
   "note": ""
  },
  {
   "property": "C30",
   "status": "proved",
   "theorems": [
    "Verif.C30_balance_assertions"
   ],
   "note": ""
  },
  {
   "property": "C31",
   "status": "proved",
   "theorems": [
    "Verif.C31_accounting_equation"
   ],
   "note": ""
  },
  {
   "property": "C32",
   "status": "proved",
   "theorems": [
    "Verif.C32_transactions_sorted"
   ],
   "note": ""
  },
  {
   "property": "C33",
   "status": "proved",
   "theorems": [
    "Verif.C33_day"
   ],
   "note": ""
  },
  {
   "property": "C34",
   "status": "proved",
   "theorems": [
    "Verif.C34_trim"
   ],
   "note": ""
  },
  {
   "property": "C35",
   "status": "proved",
   "theorems": [
    "Verif.C35_stats_range"
   ],
   "note": ""
  },
  {
   "property": "C36",
   "status": "proved",
   "theorems": [
    "Verif.C36_balance_own_totals"
   ],
   "note": "One commodity in the subtree; conversions between commodities are covered by C12-C15 only."
  },
  {
   "property": "C37",
   "status": "proved",
   "theorems": [
    "Verif.C37_balance_cumulative_totals"
   ],
   "note": ""
  },
  {
   "property": "C38",
   "status": "proved",
   "theorems": [
    "Verif.C38_balance_rows"
   ],
   "note": ""
  },
  {
   "property": "C39",
   "status": "proved",
   "theorems": [
    "Verif.C39_register_rows"
   ],
   "note": ""
  },
  {
   "property": "C40",
   "status": "partial",
   "theorems": [
    "Verif.C40_register_violated",
    "Verif.C40_register_completes_partial"
   ],
   "note": "False: a one-posting transaction (zero or elided amount) loads and crashes the register. Proved when every transaction has at least two postings."
  },
  {
   "property": "C41",
   "status": "proved",
   "theorems": [
    "Verif.C41_period_totals"
   ],
   "note": ""
  },
  {
   "property": "C42",
   "status": "proved",
   "theorems": [
    "Verif.C42_merge_timelines"
   ],
   "note": ""
  },
  {
   "property": "C43",
   "status": "partial",
   "theorems": [
    "Verif.C43_top_violated",
    "Verif.C43_top_loses_last",
    "Verif.C43_top_keeps_total_partial"
   ],
   "note": "False: with n+1 accounts the smallest one is dropped and there is no Other. Proved for every other number of accounts."
  },
  {
   "property": "C44",
   "status": "partial",
   "theorems": [
    "Verif.C44_aggregated_violated",
    "Verif.C44_top_without_root_crashes",
    "Verif.C44_aggregated_completes_partial"
   ],
   "note": "False: crashes with nothing selected, and when -g leaves the root account out. Proved when -g leaves no account out, something is selected and no category is empty."
  },
  {
   "property": "C45",
   "status": "proved",
   "theorems": [
    "Verif.C45_columns_aligned"
   ],
   "note": ""
  },
  {
   "property": "C46",
   "status": "proved",
   "theorems": [
    "Verif.C46_cumulative",
    "Verif.C46_cumulative_categories"
   ],
   "note": ""
  },
  {
   "property": "C47",
   "status": "partial",
   "theorems": [
    "Verif.C47_inverted_payee_violated",
    "Verif.C47_inverted_payee_partial"
   ],
   "note": "False with -r: trim strips the ! from the command's own field, so only the first account is inverted."
  },
  {
   "property": "C48",
   "status": "partial",
   "theorems": [
    "Verif.C48_inverted_tag_violated",
    "Verif.C48_inverted_tag_partial",
    "Verif.C48_inverted_tag_selects",
    "Verif.C48_tag_expression"
   ],
   "note": "False: an inverted expression looks for any tag that does not match."
  },
  {
   "property": "C72",
   "status": "proved",
   "theorems": [
    "Verif.C72_aggregated_values"
   ],
   "note": ""
  },
  {
   "property": "C60",
   "status": "proved",
   "theorems": [
    "Verif.C60_week",
    "Verif.C60_week_order",
    "Verif.C60_month",
    "Verif.C60_month_order",
    "Verif.C60_quarter",
    "Verif.C60_quarter_order",
    "Verif.C60_year",
    "Verif.C60_year_order",
    "Verif.C60_reducers_monotone"
   ],
   "note": ""
  },
  {
   "property": "C56",
   "status": "partial",
   "theorems": [
    "Verif.C56_dates_violated",
    "Verif.C56_dates_partial",
    "Verif.C56_print_injective"
   ],
   "note": "False for the years 0 to 99, whose four digit form is read as a two digit year."
  },
  {
   "property": "C57",
   "status": "partial",
   "theorems": [
    "Verif.C57_two_digits_violated",
    "Verif.C57_two_digits_partial"
   ],
   "note": "False when the current year is more than 150 years into its millennium (e.g. 1999)."
  },
  {
   "property": "C58",
   "status": "proved",
   "theorems": [
    "Verif.C58_omitted_year"
   ],
   "note": ""
  },
  {
   "property": "C59",
   "status": "proved",
   "theorems": [
    "Verif.C59_days_weeks",
    "Verif.C59_months_years",
    "Verif.C59_same_day"
   ],
   "note": ""
  },
  {
   "property": "C73",
   "status": "proved",
   "theorems": [
    "Verif.C73_month_and_year"
   ],
   "note": ""
  },
  {
   "property": "C74",
   "status": "partial",
   "theorems": [
    "Verif.C74_strict_violated",
    "Verif.C74_accepts_iff",
    "Verif.C74_value",
    "Verif.C74_rejects_partial"
   ],
   "note": "False: the expression is not anchored, anything may follow a date. Proved exactly: a text is accepted iff it begins with a whole date, and its value is then that of such a beginning."
  },
  {
   "property": "C53",
   "status": "proved",
   "theorems": [
    "Verif.C53_read_back",
    "Verif.C53_file_read_back"
   ],
   "note": ""
  },
  {
   "property": "C64",
   "status": "partial",
   "theorems": [
    "Verif.C64_tags_violated",
    "Verif.C64_short_value_blank",
    "Verif.C64_final_comma",
    "Verif.C64_tags_partial",
    "Verif.C64_keys_distinct",
    "Verif.C64_tags_sound"
   ],
   "note": "False: one-character values, values before a final comma, and values containing further tags are not read as written. The partial theorem covers the grammar of lines for which the claim holds; missing: note lines outside that grammar."
  },
  {
   "property": "C49",
   "status": "partial",
   "theorems": [
    "Verif.C49_moves_all_violated",
    "Verif.C49_first_only_partial",
    "Verif.C49_single_partial",
    "Verif.C49_nothing_else",
    "Verif.C49_transaction_tag"
   ],
   "note": "False: only the first matching posting of a transaction is moved. Proved: exactly that, the full claim for at most one matching posting, and that nothing else ever changes."
  },
  {
   "property": "C50",
   "status": "partial",
   "theorems": [
    "Verif.C50_adds_tag_violated",
    "Verif.C50_later_note_wins",
    "Verif.C50_adds_tag_partial",
    "Verif.C50_through_file"
   ],
   "note": "False: a tag appended to a note that ends in a valued tag is swallowed, and a later note with the same key wins. Proved for the remaining placements."
  },
  {
   "property": "C51",
   "status": "partial",
   "theorems": [
    "Verif.C51_crash_violated",
    "Verif.C51_crash_partial"
   ],
   "note": "False between remove and rename. Proved: at every crash point the complete old or the complete new content exists under the name or the temporary name, and no other file changes."
  },
  {
   "property": "C52",
   "status": "partial",
   "theorems": [
    "Verif.C52_keeps_violated",
    "Verif.C52_only_transactions_partial"
   ],
   "note": "False: only transactions are written back. The partial theorem says what remains for canonical transactions."
  },
  {
   "property": "C54",
   "status": "partial",
   "theorems": [
    "Verif.C54_idempotent_violated",
    "Verif.C54_note_without_description",
    "Verif.C54_idempotent_partial",
    "Verif.find_found_again"
   ],
   "note": "False for notes starting with a blank and for notes without description. Proved when the written transactions are canonical."
  },
  {
   "property": "C55",
   "status": "proved",
   "theorems": [
    "Verif.C55_format_order",
    "Verif.C55_trim"
   ],
   "note": ""
  },
  {
   "property": "C61",
   "status": "partial",
   "theorems": [
    "Verif.C61_dangling_note_violated",
    "Verif.C61_other_crashes",
    "Verif.C61_crash_causes_partial"
   ],
   "note": "False: several malformed texts crash. Proved: the list of causes is complete, every other text is loaded or reported as wrong."
  },
  {
   "property": "C62",
   "status": "partial",
   "theorems": [
    "Verif.C62_empty_note_violated",
    "Verif.C62_empty_note_is_posting",
    "Verif.C62_note_lines_partial"
   ],
   "note": "False: an empty note line becomes a posting with an empty account name. Proved for note lines with text."
  },
  {
   "property": "C63",
   "status": "partial",
   "theorems": [
    "Verif.C63_next_transaction_violated",
    "Verif.C63_taken_iff",
    "Verif.C63_other_lines_partial"
   ],
   "note": "False: the posting expression is not anchored. Proved: exact characterisation of the lines that are taken for postings, all others end the transaction."
  },
  {
   "property": "C65",
   "status": "partial",
   "theorems": [
    "Verif.C65_price",
    "Verif.C65_account",
    "Verif.C65_account_text",
    "Verif.C65_commodity_partial",
    "Verif.C65_commodity_text_partial",
    "Verif.C65_symbol_violated",
    "Verif.C65_default_violated"
   ],
   "note": "Accounts and prices read back exactly; a commodity loses its symbol and its default line, everything else reads back. Account descriptions of one character are not accepted by the parser and are excluded."
  },
  {
   "property": "C66",
   "status": "proved",
   "theorems": [
    "Verif.C66_post",
    "Verif.C66_post_rest",
    "Verif.C66_postConversion",
    "Verif.C66_entry",
    "Verif.C66_file",
    "Verif.C66_bank",
    "Verif.C66_card",
    "Verif.C66_dropped",
    "Verif.C66_total",
    "Verif.C66_account"
   ],
   "note": ""
  },
  {
   "property": "C67",
   "status": "partial",
   "theorems": [
    "Verif.C67_reimport_violated",
    "Verif.C67_sameDay_partial",
    "Verif.C67_exact",
    "Verif.C67_written",
    "Verif.C67_isEqual",
    "Verif.C67_keepDupes",
    "Verif.C67_writeOrder"
   ],
   "note": "False: times are compared as instants while ledger dates are noon UTC, so importing a file twice writes everything twice. Proved exactly for comparison by instant (C67_exact) and, by day, when the imported times are noon UTC."
  },
  {
   "property": "C68",
   "status": "partial",
   "theorems": [
    "Verif.C68_merge_violated",
    "Verif.C68_unchanged",
    "Verif.C68_merge_partial"
   ],
   "note": "False: FindEqual returns its argument, so the duplicate is merged with itself and its balance is always lost. MergeDuplicate itself is proved to keep balances."
  },
  {
   "property": "C69",
   "status": "proved",
   "theorems": [
    "Verif.C69_first",
    "Verif.C69_sound"
   ],
   "note": ""
  },
  {
   "property": "C70",
   "status": "partial",
   "theorems": [
    "Verif.C70_terminates_violated",
    "Verif.C70_refsBack",
    "Verif.C70_terminates_partial"
   ],
   "note": "False: a rule set can refer to itself. Proved for all accepted files without such a reference."
  },
  {
   "property": "C71",
   "status": "proved",
   "theorems": [
    "Verif.C71_dupes",
    "Verif.allPairs_iff",
    "Verif.C71_mismatches",
    "Verif.C71_unbalanced"
   ],
   "note": ""
  },
  {
   "property": "C75",
   "status": "partial",
   "theorems": [
    "Verif.C75_pattern_violated",
    "Verif.C75_pattern_partial",
    "Verif.C75_rule_partial",
    "Verif.C75_notes"
   ],
   "note": "False for patterns of one character: the rule matches every payee. Proved for all longer patterns."
  },
  {
   "property": "C76",
   "status": "partial",
   "theorems": [
    "Verif.C76_blank_violated",
    "Verif.C76_blank_partial"
   ],
   "note": "False within a section: the next line becomes a header. Proved for empty lines between sections."
  },
  {
   "property": "C77",
   "status": "partial",
   "theorems": [
    "Verif.C77_balance_violated",
    "Verif.C77_balance_partial"
   ],
   "note": "False when a rule drops the last entry. Proved otherwise."
  },
  {
   "property": "C78",
   "status": "partial",
   "theorems": [
    "Verif.C78_dump_violated",
    "Verif.C78_dump_partial",
    "Verif.C78_file_partial"
   ],
   "note": "False: dumping a rule that drops transactions panics, and notes are not written. Proved for sections of other rules, and for whole files made of them."
  },
  {
   "property": "C79",
   "status": "proved",
   "theorems": [
    "Verif.C79_in_place",
    "Verif.C79_succeeds",
    "Verif.C79_names"
   ],
   "note": ""
  },
  {
   "property": "C80",
   "status": "proved",
   "theorems": [
    "Verif.C80_no_loop",
    "Verif.C80_depth"
   ],
   "note": ""
  },
  {
   "property": "C81",
   "status": "partial",
   "theorems": [
    "Verif.C81_twice_violated",
    "Verif.C81_twice_or_never",
    "Verif.C81_readings",
    "Verif.C81_order",
    "Verif.C81_every_partial",
    "Verif.C81_once_partial"
   ],
   "note": "False: without a transactions.coin the prices file is loaded again by the glob, and with one other .coin files are not read. Proved exactly how often each file is read; each .coin file once when neither prices.coin nor transactions.coin exists; no price twice when transactions.coin exists or prices.coin does not."
  },
  {
   "property": "C82",
   "status": "proved",
   "theorems": [
    "Verif.C82_components",
    "Verif.C82_end",
    "Verif.C82_start",
    "Verif.C82_gap",
    "Verif.C82_case"
   ],
   "note": "Patterns made of words, colons and the two anchors; other regular expressions are passed to Go's engine and are not modelled."
  },
  {
   "property": "C83",
   "status": "partial",
   "theorems": [
    "Verif.C83_aligned_violated",
    "Verif.C83_aligned_partial",
    "Verif.C83_note_limit",
    "Verif.C83_posting_note_limit"
   ],
   "note": "Alignment is false for a quantity with other decimals than its account's commodity; proved otherwise for ASCII account names."
  },
  {
   "property": "C84",
   "status": "partial",
   "theorems": [
    "Verif.C84_weekly_violated",
    "Verif.C84_sound",
    "Verif.C84_weekly_partial",
    "Verif.C84_sorted",
    "Verif.C84_count",
    "Verif.C84_defaults"
   ],
   "note": "False: the end date is left out when it is a Sunday. Proved: exactly everything else."
  },
  {
   "property": "C85",
   "status": "partial",
   "theorems": [
    "Verif.C85_monthly_violated",
    "Verif.C85_sound",
    "Verif.C85_monthly_partial",
    "Verif.C85_sorted",
    "Verif.C85_count"
   ],
   "note": "False: the end date is left out when it is the first of a month. Proved: exactly everything else."
  },
  {
   "property": "C86",
   "status": "proved",
   "theorems": [
    "Verif.C86_split",
    "Verif.C86_each_once"
   ],
   "note": ""
  },
  {
   "property": "C87",
   "status": "partial",
   "theorems": [
    "Verif.C87_balances_violated",
    "Verif.C87_balances_partial",
    "Verif.C87_all"
   ],
   "note": "False: every balance is too large by the account's final balance. Proved: exactly that."
  },
  {
   "property": "C88",
   "status": "proved",
   "theorems": [
    "Verif.C88_amount",
    "Verif.C88_repay",
    "Verif.C88_fraction",
    "Verif.C88_balance_is_sum",
    "Verif.C88_pow"
   ],
   "note": ""
  },
  {
   "property": "C89",
   "status": "proved",
   "theorems": [
    "Verif.C89_same_category",
    "Verif.C89_category_name",
    "Verif.C89_from_notes"
   ],
   "note": ""
  },
  {
   "property": "C90",
   "status": "proved",
   "theorems": [
    "Verif.C90_tags_listing",
    "Verif.C90_order"
   ],
   "note": ""
  },
  {
   "property": "C91",
   "status": "partial",
   "theorems": [
    "Verif.C91_payee_violated",
    "Verif.C91_reads_back_partial",
    "Verif.C91_bank_partial"
   ],
   "note": "False: a payee with a semicolon is read back as payee and note. Proved for payees without semicolon that do not look like a code."
  },
  {
   "property": "C92",
   "status": "partial",
   "theorems": [
    "Verif.C92_fills_in_violated",
    "Verif.C92_fills_in_partial"
   ],
   "note": "False: the output of a test without end line is written but not read back. Proved for tests with their end line and outputs of whole lines."
  },
  {
   "property": "C93",
   "status": "partial",
   "theorems": [
    "Verif.C93_results_violated",
    "Verif.C93_results_partial"
   ],
   "note": "False when a file includes another one with tests between its own tests: stale line numbers, the result ends up above the test. Proved when the tests of each file follow each other."
  },
  {
   "property": "C94",
   "status": "partial",
   "theorems": [
    "Verif.C94_verdict_violated",
    "Verif.C94_verdict_partial",
    "Verif.C94_verbose"
   ],
   "note": "False for several files: the verdict of one is printed for another. Proved for one file, and with -v for any files."
  },
  {
   "property": "C95",
   "status": "partial",
   "theorems": [
    "Verif.C95_template_violated",
    "Verif.C95_template_partial",
    "Verif.C95_first",
    "Verif.C95_extraction",
    "Verif.C95_condition",
    "Verif.C95_dollar_panics"
   ],
   "note": "False: a dollar sign that does not start a reference is dropped, and panics at the end of the template. Proved for templates without other dollar signs."
  },
  {
   "property": "C96",
   "status": "partial",
   "theorems": [
    "Verif.C96_ends_violated",
    "Verif.C96_ends_partial"
   ],
   "note": "False for circular derivations. Proved for references that can be ordered."
  },
  {
   "property": "C97",
   "status": "partial",
   "theorems": [
    "Verif.C97_row",
    "Verif.C97_balanced_violated",
    "Verif.C97_balanced_partial"
   ],
   "note": "False when the traded symbol is the currency. Proved otherwise."
  },
  {
   "property": "C98",
   "status": "partial",
   "theorems": [
    "Verif.C98_account_violated",
    "Verif.C98_accounts",
    "Verif.C98_account_partial"
   ],
   "note": "False: sub-accounts come before the account itself, so a row of an account with a sub-account in the same commodity is booked on the sub-account. Proved: exactly that choice for all trees (C98_accounts), and the claim when no sub-account has the commodity of its account."
  },
  {
   "property": "C99",
   "status": "partial",
   "theorems": [
    "Verif.C99_head",
    "Verif.C99_dropped",
    "Verif.C99_rows",
    "Verif.C99_files",
    "Verif.C99_header_violated",
    "Verif.C99_header_partial"
   ],
   "note": "False: records must have as many fields as the header lines. Proved for files of one width."
  },
  {
   "property": "C100",
   "status": "partial",
   "theorems": [
    "Verif.C100_optional_violated",
    "Verif.C100_file_partial",
    "Verif.C100_sources",
    "Verif.C100_sources_useless",
    "Verif.C100_no_separator",
    "Verif.C100_dump",
    "Verif.C100_fields",
    "Verif.C100_fields_count"
   ],
   "note": "False: a file without the separator exits, one with nothing after it panics on the first record, and a dump with a source is never readable. Proved for files with both sections."
  },
  {
   "property": "C101",
   "status": "partial",
   "theorems": [
    "Verif.C101_description_violated",
    "Verif.C101_reads_back_partial"
   ],
   "note": "False: the part of a description after a semicolon is read back as a note. Proved for descriptions that are read as such."
  },
  {
   "property": "C102",
   "status": "partial",
   "theorems": [
    "Verif.C102_last_line_violated",
    "Verif.C102_repaired_partial",
    "Verif.C102_crlf"
   ],
   "note": "False: a last line without a line feed is lost. Proved for everything before it; texts with CRLF line ends are not repaired."
  },
  {
   "property": "C103",
   "status": "proved",
   "theorems": [
    "Verif.C103_accounts",
    "Verif.C103_aligned"
   ],
   "note": ""
  },
  {
   "property": "C104",
   "status": "partial",
   "theorems": [
    "Verif.C104_commodities",
    "Verif.C104_deterministic",
    "Verif.C104_prices_violated",
    "Verif.C104_prices_partial"
   ],
   "note": "False for prices in several currencies, which come in blocks in map order. Proved for commodities, and for prices in one currency."
  },
  {
   "property": "C105",
   "status": "partial",
   "theorems": [
    "Verif.C105_full_names",
    "Verif.C105_total",
    "Verif.C105_accounts_partial",
    "Verif.C105_distinct_violated",
    "Verif.C105_order_violated",
    "Verif.C105_fields",
    "Verif.C105_online",
    "Verif.C105_online_panic"
   ],
   "note": "False: names that differ only in blanks, or a colon in a name, give one full name, and then which account is kept depends on map iteration order; an online_id without digits panics. Proved for every tree when siblings' names differ without blanks and have no colon."
  },
  {
   "property": "C106",
   "status": "partial",
   "theorems": [
    "Verif.C106_fraction",
    "Verif.C106_exact_partial",
    "Verif.C106_exact_violated",
    "Verif.C106_balanced_violated",
    "Verif.C106_balanced_partial",
    "Verif.C106_decimals",
    "Verif.C106_no_fraction",
    "Verif.C106_price",
    "Verif.C106_invalid",
    "Verif.C106_zero_denominator"
   ],
   "note": "False: amounts with more decimals than the commodity are rounded down, so a balanced transaction can become unbalanced; a commodity without fraction element gets no decimals. Proved exact when the denominator divides the power of ten."
  },
  {
   "property": "C107",
   "status": "partial",
   "theorems": [
    "Verif.C107_years_partial",
    "Verif.C107_one_zone_partial",
    "Verif.C107_empty",
    "Verif.C107_empty_violated",
    "Verif.C107_truncated_violated",
    "Verif.C107_whole"
   ],
   "note": "False: a book without prices or transactions panics with -y, and with several zones a year's file can be created twice, losing transactions. Proved when years do not go back (in particular in one zone), and without -y for all books."
  },
  {
   "property": "C108",
   "status": "proved",
   "theorems": [
    "Verif.C108_stamp",
    "Verif.C108_bad_date",
    "Verif.C108_transaction",
    "Verif.C108_unknown_account",
    "Verif.C108_total",
    "Verif.C108_all",
    "Verif.C108_balance"
   ],
   "note": "Date texts in GnuCash's own layout; other texts that Go's parser accepts are a parameter."
  },
  {
   "property": "C109",
   "status": "partial",
   "theorems": [
    "Verif.C109_whole_partial",
    "Verif.C109_items",
    "Verif.C109_years_partial",
    "Verif.C109_names_violated",
    "Verif.C109_stale_violated"
   ],
   "note": "False: names with characters that coin does not allow are cut (R&D becomes R), and with -y an older transactions.coin hides the files of years. Proved end to end (write, then LoadAll) for books in canonical form, without -y into any directory, with -y into one without coin files."
  },
  {
   "property": "C110",
   "status": "partial",
   "theorems": [
    "Verif.C110_big_violated",
    "Verif.C110_page_amounts_partial"
   ],
   "note": "False above 2^53 smallest units (JavaScript numbers); proved for all amounts up to that. Doubles are modelled by exact rounding to 53 bits."
  },
  {
   "property": "C111",
   "status": "partial",
   "theorems": [
    "Verif.C111_same_text",
    "Verif.C111_separators",
    "Verif.C111_readBack_violated"
   ],
   "note": "Printing proved; reading back what is displayed is false from one million on: only the first comma is dropped."
  },
  {
   "property": "C112",
   "status": "proved",
   "theorems": [
    "Verif.C112_convert",
    "Verif.C112_near_go"
   ],
   "note": "For products of the scaled integers below 2^53."
  },
  {
   "property": "C113",
   "status": "partial",
   "theorems": [
    "Verif.C113_total",
    "Verif.C113_monotone",
    "Verif.C113_near_partial",
    "Verif.C113_own_day_violated"
   ],
   "note": "False on the day of a price: prices are sampled by week and the first price after the Sunday is used, so a price of the future may be used; proved that the Sunday is at most eleven days away."
  },
  {
   "property": "C114",
   "status": "proved",
   "theorems": [
    "Verif.C114_search",
    "Verif.C114_history",
    "Verif.C114_converts",
    "Verif.C114_convert_history",
    "Verif.C114_both_ways",
    "Verif.C114_result"
   ],
   "note": "Breadth first search with the cache of composed conversions; all reachable caches."
  },
  {
   "property": "C115",
   "status": "partial",
   "theorems": [
    "Verif.C115_rounded_violated",
    "Verif.C115_bound_partial"
   ],
   "note": "False: the composed price is rounded first, 1,000,000.00 X worth 4,000.00 Z shows as 0. Proved: the error is at most half a unit plus half a unit per unit of the amount."
  },
  {
   "property": "C116",
   "status": "proved",
   "theorems": [
    "Verif.C116_json",
    "Verif.C116_page",
    "Verif.jsonParse_encode",
    "Verif.jsonEncode_harmless"
   ],
   "note": "Go's encoder and JavaScript's JSON.parse are modelled from their documentation"
  },
  {
   "property": "C117",
   "status": "partial",
   "theorems": [
    "Verif.C117_accounts_partial",
    "Verif.C117_root_violated",
    "Verif.loadAccounts_ok",
    "Verif.resolved_pageAccts"
   ],
   "note": "false of the code: an account such as Assets:Root is dropped (and its postings make loading fail); proved when no other account is called Root"
  },
  {
   "property": "C118",
   "status": "partial",
   "theorems": [
    "Verif.C118_page_partial",
    "Verif.C118_loaded_partial",
    "Verif.C118_loaded_fields",
    "Verif.C118_empty_violated",
    "Verif.loadCommodities_ok",
    "Verif.loadPrices_ok",
    "Verif.loadTransactions_ok"
   ],
   "note": "false of the code: a ledger without transactions cannot be loaded; proved for at least one transaction, amounts up to 2^53 units, years 100 to 9999, non-zero prices"
  },
  {
   "property": "C119",
   "status": "partial",
   "theorems": [
    "Verif.C119_input_shown",
    "Verif.C119_date_violated",
    "Verif.C119_date_partial",
    "Verif.C119_date_iff",
    "Verif.C119_range_violated",
    "Verif.C119_range_partial"
   ],
   "note": "false of the code: east of UTC every date is shown a day early and the first day of a range entered by the user is lost, west of UTC its last day; proved exactly what is shown in each zone (zones without daylight saving)"
  },
  {
   "property": "C120",
   "status": "proved",
   "theorems": [
    "Verif.C120_register",
    "Verif.C120_shown"
   ],
   "note": "sums up to 2^53 units in the account's commodity"
  },
  {
   "property": "C121",
   "status": "partial",
   "theorems": [
    "Verif.C121_other_violated",
    "Verif.C121_which",
    "Verif.C121_balanced",
    "Verif.C121_other_partial"
   ],
   "note": "false of the code: a lone posting of zero has none and its register throws; proved for transactions of one commodity with at least two postings"
  },
  {
   "property": "C122",
   "status": "partial",
   "theorems": [
    "Verif.C122_balance_violated",
    "Verif.C122_balance_partial",
    "Verif.page_postings",
    "Verif.resolveTxns_order"
   ],
   "note": "false of the code: transactions asserting a balance are moved to the end of their day after balances are computed; proved when they are written last"
  },
  {
   "property": "C123",
   "status": "proved",
   "theorems": [
    "Verif.C123_children",
    "Verif.C123_visible",
    "Verif.C123_names",
    "Verif.C123_loaded"
   ],
   "note": ""
  },
  {
   "property": "C124",
   "status": "proved",
   "theorems": [
    "Verif.C124_totals",
    "Verif.C124_closed"
   ],
   "note": "balances of one commodity that together stay within 2^53 units"
  },
  {
   "property": "C125",
   "status": "proved",
   "theorems": [
    "Verif.C125_table",
    "Verif.depthFrom_level"
   ],
   "note": "balances of one commodity that together stay within 2^53 units"
  },
  {
   "property": "C126",
   "status": "proved",
   "theorems": [
    "Verif.C126_postings",
    "Verif.C126_register"
   ],
   "note": "running sums of one commodity within 2^53 units"
  },
  {
   "property": "C127",
   "status": "proved",
   "theorems": [
    "Verif.C127_path"
   ],
   "note": ""
  },
  {
   "property": "C128",
   "status": "partial",
   "theorems": [
    "Verif.C128_views_violated",
    "Verif.C128_views_partial"
   ],
   "note": "false of the code: only accounts below one of six top level names can be viewed, and the page needs an account Assets; proved exactly that"
  },
  {
   "property": "C129",
   "status": "proved",
   "theorems": [
    "Verif.C129_period",
    "Verif.C129_register",
    "Verif.C129_once"
   ],
   "note": "postings of one commodity, partial sums within 2^53 units, years 100 to 9999"
  },
  {
   "property": "C130",
   "status": "partial",
   "theorems": [
    "Verif.C130_complete_violated",
    "Verif.C130_rows_sum",
    "Verif.C130_complete_partial",
    "Verif.C130_default_partial"
   ],
   "note": "false of the code: postings of a partial first period and of a period starting on the last date are dropped, postings after the last date in its period are included; proved exactly which are added (C130_rows_sum), and the claim for ranges starting with a period and ending inside one, as for months, quarters and years when the page opens"
  },
  {
   "property": "C131",
   "status": "partial",
   "theorems": [
    "Verif.C131_balances_violated",
    "Verif.C131_balances_partial",
    "Verif.C131_end_partial"
   ],
   "note": "false of the code: balances are zero until the first posting inside the table; proved when the account has no earlier posting, and exactly what is shown otherwise"
  },
  {
   "property": "C132",
   "status": "partial",
   "theorems": [
    "Verif.C132_columns",
    "Verif.C132_complete_partial",
    "Verif.C132_zero_violated",
    "Verif.C132_empty_violated"
   ],
   "note": "false of the code: a maximum of zero shows the smallest account only, and a range in which no period starts throws; proved for a maximum of at least one and ranges with a period"
  },
  {
   "property": "C133",
   "status": "partial",
   "theorems": [
    "Verif.C133_table_partial",
    "Verif.C133_cumulative_violated"
   ],
   "note": "false of the code: Cum.Total repeats Total; rows, cells and totals proved"
  },
  {
   "property": "C134",
   "status": "proved",
   "theorems": [
    "Verif.C134_top",
    "Verif.C134_compare"
   ],
   "note": "amounts that can be converted"
  },
  {
   "property": "C135",
   "status": "proved",
   "theorems": [
    "Verif.C135_bars",
    "Verif.C135_length",
    "Verif.widthOf_ok"
   ],
   "note": "amounts of the account's commodity below 2^53 units"
  },
  {
   "property": "C136",
   "status": "proved",
   "theorems": [
    "Verif.C136_rows",
    "Verif.C136_coarser",
    "Verif.starts_apart"
   ],
   "note": ""
  },
  {
   "property": "C137",
   "status": "proved",
   "theorems": [
    "Verif.C137_balance_aligned",
    "Verif.C137_balance_printed"
   ],
   "note": "amounts below 10^50 (Width stops there) and commodities of at most 50 decimals"
  },
  {
   "property": "C138",
   "status": "partial",
   "theorems": [
    "Verif.C138_register_lines",
    "Verif.C138_zero_width",
    "Verif.C138_columns_violated",
    "Verif.C138_columns_partial"
   ],
   "note": "lines, order and contents proved; equal widths are false of the code: the column of totals is as wide as the last total, and descriptions over 50 characters or names that cannot be shortened overflow; proved otherwise"
  },
  {
   "property": "C139",
   "status": "partial",
   "theorems": [
    "Verif.C139_register_table",
    "Verif.C139_table_printed",
    "Verif.C139_table_aligned_partial",
    "Verif.C139_table_violated"
   ],
   "note": "false of the code: the amount of an empty category (no description) is printed as <nil>; proved when no category is empty, -g large enough and no amount has more than 50 digits"
  },
  {
   "property": "C140",
   "status": "partial",
   "theorems": [
    "Verif.C140_csv_reads_back",
    "Verif.C140_register_csv",
    "Verif.C140_csv_violated"
   ],
   "note": "false of the code: with an empty category the command panics; proved otherwise, for all fields, with a reader that follows RFC 4180"
  },
  {
   "property": "C141",
   "status": "proved",
   "theorems": [
    "Verif.C141_json_reads_back",
    "Verif.C140_register_csv"
   ],
   "note": "the record contents are those of C140_register_csv"
  },
  {
   "property": "C142",
   "status": "proved",
   "theorems": [
    "Verif.C142_reverse_price"
   ],
   "note": "prices whose reciprocal has less than 2^49 smallest units; the error is at most three quarters of a unit"
  },
  {
   "property": "C143",
   "status": "partial",
   "theorems": [
    "Verif.C143_there_and_back_violated",
    "Verif.C143_there_and_back_partial"
   ],
   "note": "false of the code: the reverse price is rounded to the decimals of the commodity, 1000.00 USD become 1330.00 CAD and then 997.50 USD; proved bound of the error"
  },
  {
   "property": "C144",
   "status": "partial",
   "theorems": [
    "Verif.C144_names_violated",
    "Verif.C144_names_partial"
   ],
   "note": "false of the code: the prefix is cut inside a component, CashBack and Back are both shown as Back on the register of Cash; proved for accounts whose names do not go on after the prefix without a colon"
  },
  {
   "property": "C145",
   "status": "proved",
   "theorems": [
    "Verif.C145_balance_converts",
    "Verif.C145_error"
   ],
   "note": "the order in which prices of a commodity are tried when there is no direct one is fixed for a run; the error bound is for direct prices and commodities with at least as many decimals as the currency"
  },
  {
   "property": "C146",
   "status": "proved",
   "theorems": [
    "Verif.C146_register_converts"
   ],
   "note": "with -r for payee filters that do not start with an exclamation mark (C26)"
  },
  {
   "property": "C147",
   "status": "proved",
   "theorems": [
    "Verif.C147_transactions",
    "Verif.C147_accounts",
    "Verif.C147_prices",
    "Verif.C147_commodities"
   ],
   "note": "for transactions between the years 100 and 9999 whose description and notes do not end in a carriage return, with notes only under a description and not indented further, at least one posting, and amounts with at most 50 decimals that fit 64 bits when written with all decimals"
  },
  {
   "property": "C148",
   "status": "partial",
   "theorems": [
    "Verif.C148_rejected_violated",
    "Verif.C148_format_again_partial"
   ],
   "note": "false of the code: 9223372036854775807 CAD is accepted and written with decimals, which is then rejected as too big; proved for files that declare no commodities of their own and transactions as in C147"
  },
  {
   "property": "C149",
   "status": "proved",
   "theorems": [
    "Verif.C149_register",
    "Verif.C149_sub_register",
    "Verif.C149_balances",
    "Verif.C149_aggregated",
    "Verif.C149_columns",
    "Verif.C149_other",
    "Verif.C149_worth"
   ],
   "note": "as long as the running sums are at most 2^53 smallest units; summer time is not modelled"
  },
  {
   "property": "C150",
   "status": "partial",
   "theorems": [
    "Verif.C150_own_accounts_violated",
    "Verif.C150_exactly_partial",
    "Verif.C150_several_files"
   ],
   "note": "false of the code: accounts declared in the file itself (or in an earlier file of the same run) are not resolved, and a posting to one of them panics; proved: exactly the files without such postings are formatted, and several files without declarations are formatted independently"
  },
  {
   "property": "C151",
   "status": "proved",
   "theorems": [
    "Verif.C151_refused",
    "Verif.C151_whole",
    "Verif.C151_ledger",
    "Verif.C151_short"
   ],
   "note": ""
  },
  {
   "property": "C152",
   "status": "partial",
   "theorems": [
    "Verif.C152_ofx_rules",
    "Verif.C152_csv_rules_violated",
    "Verif.C152_csv_rules_partial"
   ],
   "note": "ofx.rules proved; false of csv.rules: a long line right after the separator drops all rules for accounts silently"
  },
  {
   "property": "C153",
   "status": "proved",
   "theorems": [
    "Verif.C153_accepted_iff",
    "Verif.C153_values",
    "Verif.C153_same_run"
   ],
   "note": "the run for balance and register; number and date syntax are parameters"
  },
  {
   "property": "C154",
   "status": "partial",
   "theorems": [
    "Verif.C154_rest_ignored",
    "Verif.C154_before_partial",
    "Verif.C154_flags_last_violated"
   ],
   "note": "false of the code: everything behind the first argument is ignored without a message, flags too; proved for flags before it"
  },
  {
   "property": "C155",
   "status": "partial",
   "theorems": [
    "Verif.C155_default_partial",
    "Verif.C155_unknown",
    "Verif.C155_default_violated"
   ],
   "note": "false of the code: balance is assumed only without any argument, coin -l 1 is refused as an unknown command; proved for no arguments"
  },
  {
   "property": "C156",
   "status": "proved",
   "theorems": [
    "Verif.C156_balance_of_files",
    "Verif.C156_balance_printed",
    "Verif.C156_any_commodities"
   ],
   "note": "end to end: scanner, parser, includes, prices, accounts, transactions, flags, report, text; for -l other than 0 the account names must be plain (C23)"
  },
  {
   "property": "C157",
   "status": "proved",
   "theorems": [
    "Verif.C157_register_of_files"
   ],
   "note": "end to end: scanner, parser, includes, prices, accounts, transactions, flags, report, text"
  },
  {
   "property": "C158",
   "status": "partial",
   "theorems": [
    "Verif.C158_unit_violated",
    "Verif.C158_unit_partial"
   ],
   "note": "false of the code: with -r the running total, in the commodity of the account asked for, is labelled with the commodity of the account of the line; proved when the accounts shown have one commodity"
  },
  {
   "property": "C159",
   "status": "proved",
   "theorems": [
    "Verif.C159_commodity",
    "Verif.C159_loaded"
   ],
   "note": ""
  },
  {
   "property": "C160",
   "status": "partial",
   "theorems": [
    "Verif.C160_note_violated",
    "Verif.C160_account_partial"
   ],
   "note": "false of the code for notes of one character, which are refused; proved for everything else"
  },
  {
   "property": "C161",
   "status": "proved",
   "theorems": [
    "Verif.C161_price"
   ],
   "note": "one blank behind P; years of four digits"
  },
  {
   "property": "C162",
   "status": "partial",
   "theorems": [
    "Verif.C162_margin_violated",
    "Verif.C162_empty_note_violated",
    "Verif.C162_head_note_violated",
    "Verif.C162_transaction_partial"
   ],
   "note": "false of the code: a line at the margin right below a transaction is taken for a posting if it has a word behind a blank; a semicolon alone becomes a posting without account; a note on a first line without description becomes the description. Proved in any layout when the next line does not look like a posting"
  },
  {
   "property": "C163",
   "status": "proved",
   "theorems": [
    "Verif.C163_file"
   ],
   "note": "for the layouts of C159-C162"
  },
  {
   "property": "C164",
   "status": "proved",
   "theorems": [
    "Verif.C164_safe_id",
    "Verif.C164_distinct",
    "Verif.C164_digits",
    "Verif.C164_transaction",
    "Verif.C164_account",
    "Verif.C164_commodity",
    "Verif.C164_commodity_quoted",
    "Verif.C164_account_quoted",
    "Verif.C164_price"
   ],
   "note": ""
  },
  {
   "property": "C165",
   "status": "partial",
   "theorems": [
    "Verif.C165_reads_back_violated",
    "Verif.C165_reads_back_partial",
    "Verif.C165_reread",
    "Verif.C165_refused"
   ],
   "note": "false of the code: coin does not read quoted commodities; an amount with one, and the assertion and note behind it, silently disappear (C165_reread says exactly what is left). Proved for commodities without digits; two lost amounts are refused when transactions are resolved"
  },
  {
   "property": "C166",
   "status": "partial",
   "theorems": [
    "Verif.C166_account_violated",
    "Verif.C166_empty_violated",
    "Verif.C166_lookup_partial",
    "Verif.C166_account_partial",
    "Verif.C166_posts"
   ],
   "note": "false of the code: two accounts with the same id, or a statement without an id, make the account posted to depend on the iteration order of a map. Proved when at most one account carries the id of each statement; C166_posts holds for every successful import in any order"
  },
  {
   "property": "C167",
   "status": "proved",
   "theorems": [
    "Verif.C167_ids",
    "Verif.C167_ids_order"
   ],
   "note": ""
  },
  {
   "property": "C168",
   "status": "proved",
   "theorems": [
    "Verif.C168_opens",
    "Verif.C168_amounts"
   ],
   "note": "Opening is proved up to 15000 transactions: interest compounds, so with very many transactions an amount no longer fits the 64 bits of the parser. A directory that already holds coin files, -wb (C87) and -j are not included."
  },
  {
   "property": "C169",
   "status": "proved",
   "theorems": [
    "Verif.C169_aggregated_of_files",
    "Verif.C169_not_both"
   ],
   "note": "Ledgers of one commodity. Where -g leaves accounts out, nothing is selected, or a category is empty the command crashes or drops numbers (C43, C44, C139, C140)."
  },
  {
   "property": "C170",
   "status": "partial",
   "theorems": [
    "Verif.C170_accounts_of_files",
    "Verif.C170_same_accounts_violated",
    "Verif.C170_same_accounts_partial"
   ],
   "note": "The listing is proved for all files; that it has all accounts is false of the code: the command reads only the files of commodities and accounts, so an account declared beside prices or transactions is missing."
  },
  {
   "property": "C171",
   "status": "proved",
   "theorems": [
    "Verif.C171_tags_of_files",
    "Verif.C171_bad_expression"
   ],
   "note": "From the text of the files and the argument list to the bytes printed, for every ledger that loads."
  },
  {
   "property": "C172",
   "status": "proved",
   "theorems": [
    "Verif.C172_duplicates",
    "Verif.C172_checks",
    "Verif.C172_writable"
   ],
   "note": "Duplicates are proved for ledgers whose amounts have the decimals of the commodity of their account; -c if the second amount of a two-posting transaction does not have more decimals than the first (see C06). File and line of a transaction are a parameter."
  },
  {
   "property": "C173",
   "status": "proved",
   "theorems": [
    "Verif.C173_prices",
    "Verif.C173_list",
    "Verif.C173_latest"
   ],
   "note": "Amounts have at most 50 decimals (the table of powers); -p is proved if no currency is declared again after prices in it have been read. Quotes from the net (-q) and the text of a location are not modelled."
  },
  {
   "property": "C174",
   "status": "proved",
   "theorems": [
    "Verif.C174_report",
    "Verif.C174_verdict",
    "Verif.C174_filled",
    "Verif.C174_alone",
    "Verif.C174_nested"
   ],
   "note": "The commands balance, register, tags, stats, accounts, commodities and version; accounts and commodities read fewer files when they run by themselves (C170, C173), so the text of these is that of the whole file. Tests that run format or modify are not modelled. The verdict without -v is for tests of one file: with several it is wrong (C94)."
  },
  {
   "property": "C175",
   "status": "partial",
   "theorems": [
    "Verif.C175_reproducible_violated",
    "Verif.C175_reproducible_partial",
    "Verif.C175_balance_partial",
    "Verif.C175_register_partial"
   ],
   "note": "False in general: a commodity with prices in two currencies is converted over the one a map yields first, so one ledger prints 2.00 CAD in one run and 3.00 CAD in the next. Proved where every commodity is priced in one currency and on no day twice with different values, for every command line of balance and register: the order of creation of accounts, of linking, of sorting and of walking them does not show. The order of the columns of an aggregated register (C169) and the text of locations are taken to be the same in both runs; no account name starts with a colon or with Root:. For a ledger of one commodity C175_balance_partial has the balance report, and C175_register_partial the plain register without -f, whatever the prices, column order and locations."
  },
  {
   "property": "C176",
   "status": "partial",
   "theorems": [
    "Verif.C176_formatting_violated",
    "Verif.C176_loads",
    "Verif.C176_balance_partial",
    "Verif.C176_register_partial"
   ],
   "note": "False for the register: format writes a transaction with an asserted balance behind the others of its day, so that the rows of a day change places and an assertion that was correct becomes wrong (register Cash shows 10.00* before and 6.50* after). Proved: the formatted ledger loads and differs from the old one only in that the transactions of the file are the completed ones in the order written (C176_loads); in a ledger of one commodity balance prints the same text under all flags and filters (C176_balance_partial); if besides in the file transactions with an asserted balance already stand behind the others of their day, the plain register without -f is the same too (C176_register_partial: when both runs print). All for files of transactions alone that no other file includes."
  },
  {
   "property": "C177",
   "status": "proved",
   "theorems": [
    "Verif.C177_balance_text",
    "Verif.C177_unique"
   ],
   "note": "ExactBalance names accounts, order, widths and every character of each line; C177_unique shows that only one text fits. Assumes a ledger in one commodity with at most 50 decimals and no account name starting with a colon or with Root:."
  },
  {
   "property": "C178",
   "status": "proved",
   "theorems": [
    "Verif.C178_register_text",
    "Verif.C178_unique"
   ],
   "note": "ExactRegister names postings, order, running totals, widths and every character of each line; C178_unique shows that only one text fits (without -f, which adds file locations that are a parameter of the model). Covers every register that prints; whether it prints or stops with an error is C60 and C154. Assumes no account name starting with a colon or with Root:, and with -r a payee filter that does not start with an exclamation mark (the inverted one is applied wrongly there, see the register filter claims)."
  },
  {
   "property": "C179",
   "status": "proved",
   "theorems": [
    "Verif.C179_loads",
    "Verif.C179_moves",
    "Verif.C179_total",
    "Verif.C179_tags_only",
    "Verif.C179_idle"
   ],
   "note": "From the command line and the directory to the reports. C179_loads gives the items of the ledger afterwards; C179_moves the totals of all accounts without -pt; C179_total and C179_tags_only hold with every combination of flags. Assumes a ledger in one commodity, a file of transactions alone that no other file includes, and texts that read back as written (ModifyRun.settled: no description or note that the parser would cut differently); filters with -t are left out because modify changes tags."
  },
  {
   "property": "C180",
   "status": "partial",
   "theorems": [
    "Verif.C180_count_violated",
    "Verif.C180_reported",
    "Verif.C180_count_partial"
   ],
   "note": "False: transactions that only get a tag by -tt: are changed but not counted (modify -a Food -tt: #moved reports 0). Proved: C180_reported says exactly which transactions are counted, under all flags; C180_count_partial: without -tt: the number is right, provided that postings are tagged or moved to another account."
  },
  {
   "property": "C181",
   "status": "proved",
   "theorems": [
    "Verif.C181_modify_one_by_one",
    "Verif.C181_format_one_by_one",
    "Verif.C181_prints_what_it_writes",
    "Verif.C181_in_place"
   ],
   "note": "Equivalences between runs: each side succeeds exactly when the other does, with the same files and texts. For files that add transactions and nothing else; files that declare accounts or commodities are C150 and FormatOwn. C181_in_place ties the command line to the format -i of C176."
  },
  {
   "property": "C182",
   "status": "partial",
   "theorems": [
    "Verif.C182_price_violated",
    "Verif.C182_price_partial",
    "Verif.C182_exact_partial",
    "Verif.C182_bound"
   ],
   "note": "False of the code: the product with the power of ten is cut, not rounded, so 1.15 CAD is recorded as 1.14 CAD. Proved: a price with at most the decimals of its currency is recorded as it is or one unit lower, exactly if it is a float64 (1.25), and any price to within one unit and the rounding of one multiplication. float64 values are exact fractions rounded to 53 bits; the service is a parameter."
  },
  {
   "property": "C183",
   "status": "proved",
   "theorems": [
    "Verif.C183_quotes",
    "Verif.C183_read_back",
    "Verif.C183_unknown_crashes"
   ],
   "note": "For all answers of the service, which is a parameter, but a nil pointer without an error: C183_unknown_crashes shows that the command then crashes. Currencies have at most 18 decimals (beyond that pow10 panics)."
  },
  {
   "property": "C184",
   "status": "partial",
   "theorems": [
    "Verif.C184_same_accounts_violated",
    "Verif.C184_boxes_partial",
    "Verif.C184_one_level_more_partial"
   ],
   "note": "False of the code: with the same depth the table goes one level deeper than the chart (C184_same_accounts_violated). Proved: which boxes the chart has, and that the table shows the accounts and totals of the chart of one level more; balances of one commodity within 2^53 units."
  },
  {
   "property": "C185",
   "status": "partial",
   "theorems": [
    "Verif.C185_area_violated",
    "Verif.C185_value_partial"
   ],
   "note": "False of the code: balances in the other direction count as 0 in the areas but are subtracted in the totals (C185_area_violated). Proved: the value is the sum of the balances in the normal direction, is never less than the total, and equals it exactly when no balance is in the other direction. The division of each balance by 10^decimals and the rounding of the floating point sum are left out."
  },
  {
   "property": "C186",
   "status": "partial",
   "theorems": [
    "Verif.C186_independent_violated",
    "Verif.C186_looking_partial",
    "Verif.C186_in_order",
    "Verif.C186_tags_of_the_file"
   ],
   "note": "False of the code: modify and format -t in a test change the transactions in memory, and later tests print them changed (C186_independent_violated). Proved: when all tests but the last change nothing the tests are independent; in general a test runs on the transactions as left by those before it, with the tags of when they were loaded. Tests of other commands are not in these sequences."
  },
  {
   "property": "C187",
   "status": "proved",
   "theorems": [
    "Verif.C187_modify",
    "Verif.C187_format"
   ],
   "note": "for transactions as they are loaded (no test before changed them) and files that declare no accounts themselves"
  },
  {
   "property": "C188",
   "status": "proved",
   "theorems": [
    "Verif.C188_balance_text",
    "Verif.C188_unique",
    "Verif.C188_one_text"
   ],
   "note": "for account names that do not begin with a colon and are not below Root: (PlainNames); commodities with at most 50 decimals"
  },
  {
   "property": "C189",
   "status": "proved",
   "theorems": [
    "Verif.C189_register_printed"
   ],
   "note": "with -r the payee expression is not inverted (NoBang, see C47); transactions with one posting crash the register (C40_register_violated)"
  },
  {
   "property": "C190",
   "status": "proved",
   "theorems": [
    "Verif.C190_same_total"
   ],
   "note": "the register is one without -n, -f and aggregation, whose lines end in the running total; the payee expression is not inverted (NoBang, see C47)"
  },
  {
   "property": "C191",
   "status": "proved",
   "theorems": [
    "Verif.C191_columns_add_up"
   ],
   "note": "without -c; under the conditions of C169 on the register"
  },
  {
   "property": "C192",
   "status": "proved",
   "theorems": [
    "Verif.C192_ranges_add_up"
   ],
   "note": "with -z and without -l, so that every account has a line"
  },
  {
   "property": "C193",
   "status": "proved",
   "theorems": [
    "Verif.C193_page_register",
    "Verif.page_postings_perm"
   ],
   "note": "the page transactions are those C118 shows to be on the page; the register without subaccounts and aggregation"
  },
  {
   "property": "C194",
   "status": "proved",
   "theorems": [
    "Verif.C194_books_balance",
    "Verif.opened_balanced"
   ],
   "note": "without -t, which selects single postings"
  },
  {
   "property": "C195",
   "status": "proved",
   "theorems": [
    "Verif.C195_page_family",
    "Verif.page_down"
   ],
   "note": "the transactions and accounts are those C118 and C117 show to be on the page; without aggregation; closed accounts are shown or none is closed by the end of the range"
  },
  {
   "property": "C196",
   "status": "proved",
   "theorems": [
    "Verif.C196_page_table",
    "Verif.page_balance"
   ],
   "note": "the transactions and accounts are those C118 and C117 show to be on the page; with asserted balances see C122; closed accounts are shown or none is closed by the end of the day"
  },
  {
   "property": "C197",
   "status": "proved",
   "theorems": [
    "Verif.C197_register_explains_balance",
    "Verif.page_last_total"
   ],
   "note": "the page transactions are those C118 shows to be on the page; with asserted balances see C122"
  },
  {
   "property": "C198",
   "status": "proved",
   "theorems": [
    "Verif.C198_same_numbers"
   ],
   "note": "with -z, so that accounts without totals have lines too"
  },
  {
   "property": "C199",
   "status": "proved",
   "theorems": [
    "Verif.C199_page_balances"
   ],
   "note": "the transactions and accounts are those C118 and C117 show to be on the page; with asserted balances see C122"
  }
 ]
}