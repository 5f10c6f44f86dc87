c("C01","proved","C01_print_parse C01_write_is_string")
c("C02","proved","C02_parse_exact")
c("C03","partial","C03_excess_digits_violated C03_excess_digits_partial C03_rounds_down C03_too_many_digits_panics","False for negative literals: big.Int.Div rounds toward minus infinity. Proved for non-negative literals, plus the exact behaviour for all signs.")
c("C04","proved","C04_addin_exact")
c("C05","partial","C05_conversion_error_violated C05_conversion_error_partial C05_failure_unchanged","One-unit bound is false when the source commodity has fewer decimals than the total; bound by the coarser unit proved.")
c("C06","partial","C06_compare_violated C06_compare_partial C06_compare_antisymm_partial","False when the right operand has more decimals (truncated before comparing).")
c("C07","proved","C07_negated")
c("C08","proved","C08_width C08_width_panics")
c("C09","proved","C09_bigLog10 C09_bigPow10 C09_pow10 C09_log10 C09_setFraction")
c("C10","proved","C10_frac_floor C10_frac_zero_den")
c("C11","partial","C11_magnitude_violated C11_magnitude_partial","False across different decimals.")
c("C12","proved","C12_convert_terminates")
c("C13","proved","C13_convert_iff_path C16_loaded_prices_nonempty")
c("C14","partial","C14_order_independent_violated C14_order_independent_partial","False with several price chains (DFS in map order); success, direct prices and single-currency tables proved order independent.")
c("C15","partial","C15_target_commodity_violated C15_result_keeps_source_commodity C15_target_value_partial","False: the result keeps the source commodity; the number is right for direct prices with equal decimals.")
c("C16","proved","C16_latest_price C16_permutation_invariant C16_loaded_prices_nonempty")
c("C17","proved","C17_sorted_nodup")
c("C18","proved","C18_add C18_delete C18_ties_in_arrival_order")
c("C19","proved","C19_move_loses_nothing C19_listed_only_by_own_account")
c("C20","proved","C20_one_tree C20_linking_succeeds")
c("C21","partial","C21_exactly_missing_ancestors C21_declared_kept_violated C21_declared_kept_partial","The set of names is proved; a declared account named Unbalanced is replaced by a default one.")
c("C22","proved","C22_closed_iff")
c("C23","partial","C23_depth_violated C23_depth_partial","False for accounts declared as Root:x.")
c("C24","partial","C24_ambiguous_violated C24_find_partial","False: only the first two matches are compared, by string prefix.")
c("C25","proved","C25_shorten")
c("C26","proved","C26_loaded_balanced")
c("C27","proved","C27_transactions_accepted_iff C27_load_succeeds_iff","Panics/exits of currency conversion inside a sum are part of the first theorem's acceptance condition.")
c("C28","proved","C28_elided_amount")
c("C29","proved","C29_running_balances")
c("C30","proved","C30_balance_assertions")
c("C31","proved","C31_accounting_equation")
c("C32","proved","C32_transactions_sorted")
c("C33","proved","C33_day")
c("C34","proved","C34_trim")
c("C35","proved","C35_stats_range")
c("C36","proved","C36_balance_own_totals","One commodity in the subtree; conversions between commodities are covered by C12-C15 only.")
c("C37","proved","C37_balance_cumulative_totals")
c("C38","proved","C38_balance_rows")
c("C39","proved","C39_register_rows")
c("C40","partial","C40_register_violated C40_register_completes_partial","False: a one-posting transaction (zero or elided amount) loads and crashes the register. Proved when every transaction has at least two postings.")
c("C41","proved","C41_period_totals")
c("C42","proved","C42_merge_timelines")
c("C43","partial","C43_top_violated C43_top_loses_last C43_top_keeps_total_partial","False: with n+1 accounts the smallest one is dropped and there is no Other. Proved for every other number of accounts.")
c("C44","partial","C44_aggregated_violated C44_top_without_root_crashes C44_aggregated_completes_partial","False: crashes with nothing selected, and when -g leaves the root account out. Proved when -g leaves no account out, something is selected and no category is empty.")
c("C45","proved","C45_columns_aligned")
c("C46","proved","C46_cumulative C46_cumulative_categories")
c("C47","partial","C47_inverted_payee_violated C47_inverted_payee_partial","False with -r: trim strips the ! from the command's own field, so only the first account is inverted.")
c("C48","partial","C48_inverted_tag_violated C48_inverted_tag_partial C48_inverted_tag_selects C48_tag_expression","False: an inverted expression looks for any tag that does not match.")
c("C72","proved","C72_aggregated_values")
c("C60","proved","C60_week C60_week_order C60_month C60_month_order C60_quarter C60_quarter_order C60_year C60_year_order C60_reducers_monotone")
c("C56","partial","C56_dates_violated C56_dates_partial C56_print_injective","False for the years 0 to 99, whose four digit form is read as a two digit year.")
c("C57","partial","C57_two_digits_violated C57_two_digits_partial","False when the current year is more than 150 years into its millennium (e.g. 1999).")
c("C58","proved","C58_omitted_year")
c("C59","proved","C59_days_weeks C59_months_years C59_same_day")
c("C73","proved","C73_month_and_year")
c("C74","partial","C74_strict_violated C74_accepts_iff C74_value C74_rejects_partial","False: the expression is not anchored, anything may follow a date. Proved exactly: a text is accepted iff it begins with a whole date, and its value is then that of such a beginning.")
c("C53","proved","C53_read_back C53_file_read_back")
c("C64","partial","C64_tags_violated C64_short_value_blank C64_final_comma C64_tags_partial C64_keys_distinct C64_tags_sound","False: one-character values, values before a final comma, and values containing further tags are not read as written. The partial theorem covers the grammar of lines for which the claim holds; missing: note lines outside that grammar.")
c("C49","partial","C49_moves_all_violated C49_first_only_partial C49_single_partial C49_nothing_else C49_transaction_tag","False: only the first matching posting of a transaction is moved. Proved: exactly that, the full claim for at most one matching posting, and that nothing else ever changes.")
c("C50","partial","C50_adds_tag_violated C50_later_note_wins C50_adds_tag_partial C50_through_file","False: a tag appended to a note that ends in a valued tag is swallowed, and a later note with the same key wins. Proved for the remaining placements.")
c("C51","partial","C51_crash_violated C51_crash_partial","False between remove and rename. Proved: at every crash point the complete old or the complete new content exists under the name or the temporary name, and no other file changes.")
c("C52","partial","C52_keeps_violated C52_only_transactions_partial","False: only transactions are written back. The partial theorem says what remains for canonical transactions.")
c("C54","partial","C54_idempotent_violated C54_note_without_description C54_idempotent_partial find_found_again","False for notes starting with a blank and for notes without description. Proved when the written transactions are canonical.")
c("C55","proved","C55_format_order C55_trim")
c("C61","partial","C61_dangling_note_violated C61_other_crashes C61_crash_causes_partial","False: several malformed texts crash. Proved: the list of causes is complete, every other text is loaded or reported as wrong.")
c("C62","partial","C62_empty_note_violated C62_empty_note_is_posting C62_note_lines_partial","False: an empty note line becomes a posting with an empty account name. Proved for note lines with text.")
c("C63","partial","C63_next_transaction_violated C63_taken_iff C63_other_lines_partial","False: the posting expression is not anchored. Proved: exact characterisation of the lines that are taken for postings, all others end the transaction.")
c("C65","partial","C65_price C65_account C65_account_text C65_commodity_partial C65_commodity_text_partial C65_symbol_violated C65_default_violated","Accounts and prices read back exactly; a commodity loses its symbol and its default line, everything else reads back. Account descriptions of one character are not accepted by the parser and are excluded.")
c("C66","proved","C66_post C66_post_rest C66_postConversion C66_entry C66_file C66_bank C66_card C66_dropped C66_total C66_account")
c("C67","partial","C67_reimport_violated C67_sameDay_partial C67_exact C67_written C67_isEqual C67_keepDupes C67_writeOrder","False: times are compared as instants while ledger dates are noon UTC, so importing a file twice writes everything twice. Proved exactly for comparison by instant (C67_exact) and, by day, when the imported times are noon UTC.")
c("C68","partial","C68_merge_violated C68_unchanged C68_merge_partial","False: FindEqual returns its argument, so the duplicate is merged with itself and its balance is always lost. MergeDuplicate itself is proved to keep balances.")
c("C69","proved","C69_first C69_sound")
c("C70","partial","C70_terminates_violated C70_refsBack C70_terminates_partial","False: a rule set can refer to itself. Proved for all accepted files without such a reference.")
c("C71","proved","C71_dupes allPairs_iff C71_mismatches C71_unbalanced")
c("C75","partial","C75_pattern_violated C75_pattern_partial C75_rule_partial C75_notes","False for patterns of one character: the rule matches every payee. Proved for all longer patterns.")
c("C76","partial","C76_blank_violated C76_blank_partial","False within a section: the next line becomes a header. Proved for empty lines between sections.")
c("C77","partial","C77_balance_violated C77_balance_partial","False when a rule drops the last entry. Proved otherwise.")
c("C78","partial","C78_dump_violated C78_dump_partial C78_file_partial","False: dumping a rule that drops transactions panics, and notes are not written. Proved for sections of other rules, and for whole files made of them.")
c("C79","proved","C79_in_place C79_succeeds C79_names")
c("C80","proved","C80_no_loop C80_depth")
c("C81","partial","C81_twice_violated C81_twice_or_never C81_readings C81_order C81_every_partial C81_once_partial","False: without a transactions.coin the prices file is loaded again by the glob, and with one other .coin files are not read. Proved exactly how often each file is read; each .coin file once when neither prices.coin nor transactions.coin exists; no price twice when transactions.coin exists or prices.coin does not.")
c("C82","proved","C82_components C82_end C82_start C82_gap C82_case","Patterns made of words, colons and the two anchors; other regular expressions are passed to Go's engine and are not modelled.")
c("C83","partial","C83_aligned_violated C83_aligned_partial C83_note_limit C83_posting_note_limit","Alignment is false for a quantity with other decimals than its account's commodity; proved otherwise for ASCII account names.")
c("C84","partial","C84_weekly_violated C84_sound C84_weekly_partial C84_sorted C84_count C84_defaults","False: the end date is left out when it is a Sunday. Proved: exactly everything else.")
c("C85","partial","C85_monthly_violated C85_sound C85_monthly_partial C85_sorted C85_count","False: the end date is left out when it is the first of a month. Proved: exactly everything else.")
c("C86","proved","C86_split C86_each_once")
c("C87","partial","C87_balances_violated C87_balances_partial C87_all","False: every balance is too large by the account's final balance. Proved: exactly that.")
c("C88","proved","C88_amount C88_repay C88_fraction C88_balance_is_sum C88_pow")
c("C89","proved","C89_same_category C89_category_name C89_from_notes")
c("C90","proved","C90_tags_listing C90_order")
c("C91","partial","C91_payee_violated C91_reads_back_partial C91_bank_partial","False: a payee with a semicolon is read back as payee and note. Proved for payees without semicolon that do not look like a code.")
c("C92","partial","C92_fills_in_violated C92_fills_in_partial","False: the output of a test without end line is written but not read back. Proved for tests with their end line and outputs of whole lines.")
c("C93","partial","C93_results_violated C93_results_partial","False when a file includes another one with tests between its own tests: stale line numbers, the result ends up above the test. Proved when the tests of each file follow each other.")
c("C94","partial","C94_verdict_violated C94_verdict_partial C94_verbose","False for several files: the verdict of one is printed for another. Proved for one file, and with -v for any files.")
c("C95","partial","C95_template_violated C95_template_partial C95_first C95_extraction C95_condition C95_dollar_panics","False: a dollar sign that does not start a reference is dropped, and panics at the end of the template. Proved for templates without other dollar signs.")
c("C96","partial","C96_ends_violated C96_ends_partial","False for circular derivations. Proved for references that can be ordered.")
c("C97","partial","C97_row C97_balanced_violated C97_balanced_partial","False when the traded symbol is the currency. Proved otherwise.")
c("C98","partial","C98_account_violated C98_accounts C98_account_partial","False: sub-accounts come before the account itself, so a row of an account with a sub-account in the same commodity is booked on the sub-account. Proved: exactly that choice for all trees (C98_accounts), and the claim when no sub-account has the commodity of its account.")
c("C99","partial","C99_head C99_dropped C99_rows C99_files C99_header_violated C99_header_partial","False: records must have as many fields as the header lines. Proved for files of one width.")
c("C100","partial","C100_optional_violated C100_file_partial C100_sources C100_sources_useless C100_no_separator C100_dump C100_fields C100_fields_count","False: a file without the separator exits, one with nothing after it panics on the first record, and a dump with a source is never readable. Proved for files with both sections.")
c("C101","partial","C101_description_violated C101_reads_back_partial","False: the part of a description after a semicolon is read back as a note. Proved for descriptions that are read as such.")
c("C102","partial","C102_last_line_violated C102_repaired_partial C102_crlf","False: a last line without a line feed is lost. Proved for everything before it; texts with CRLF line ends are not repaired.")
c("C103","proved","C103_accounts C103_aligned")
c("C104","partial","C104_commodities C104_deterministic C104_prices_violated C104_prices_partial","False for prices in several currencies, which come in blocks in map order. Proved for commodities, and for prices in one currency.")
c("C105","partial","C105_full_names C105_total C105_accounts_partial C105_distinct_violated C105_order_violated C105_fields C105_online C105_online_panic","False: names that differ only in blanks, or a colon in a name, give one full name, and then which account is kept depends on map iteration order; an online_id without digits panics. Proved for every tree when siblings' names differ without blanks and have no colon.")
c("C106","partial","C106_fraction C106_exact_partial C106_exact_violated C106_balanced_violated C106_balanced_partial C106_decimals C106_no_fraction C106_price C106_invalid C106_zero_denominator","False: amounts with more decimals than the commodity are rounded down, so a balanced transaction can become unbalanced; a commodity without fraction element gets no decimals. Proved exact when the denominator divides the power of ten.")
c("C107","partial","C107_years_partial C107_one_zone_partial C107_empty C107_empty_violated C107_truncated_violated C107_whole","False: a book without prices or transactions panics with -y, and with several zones a year's file can be created twice, losing transactions. Proved when years do not go back (in particular in one zone), and without -y for all books.")
c("C108","proved","C108_stamp C108_bad_date C108_transaction C108_unknown_account C108_total C108_all C108_balance","Date texts in GnuCash's own layout; other texts that Go's parser accepts are a parameter.")
c("C109","partial","C109_whole_partial C109_items C109_years_partial C109_names_violated C109_stale_violated","False: names with characters that coin does not allow are cut (R&D becomes R), and with -y an older transactions.coin hides the files of years. Proved end to end (write, then LoadAll) for books in canonical form, without -y into any directory, with -y into one without coin files.")
c("C110","partial","C110_big_violated C110_page_amounts_partial","False above 2^53 smallest units (JavaScript numbers); proved for all amounts up to that. Doubles are modelled by exact rounding to 53 bits.")
c("C111","partial","C111_same_text C111_separators C111_readBack_violated","Printing proved; reading back what is displayed is false from one million on: only the first comma is dropped.")
c("C112","proved","C112_convert C112_near_go","For products of the scaled integers below 2^53.")
c("C113","partial","C113_total C113_monotone C113_near_partial C113_own_day_violated","False on the day of a price: prices are sampled by week and the first price after the Sunday is used, so a price of the future may be used; proved that the Sunday is at most eleven days away.")
c("C114","proved","C114_search C114_history C114_converts C114_convert_history C114_both_ways C114_result","Breadth first search with the cache of composed conversions; all reachable caches.")
c("C115","partial","C115_rounded_violated C115_bound_partial","False: the composed price is rounded first, 1,000,000.00 X worth 4,000.00 Z shows as 0. Proved: the error is at most half a unit plus half a unit per unit of the amount.")
c("C116","proved","C116_json C116_page jsonParse_encode jsonEncode_harmless","Go's encoder and JavaScript's JSON.parse are modelled from their documentation")
c("C117","partial","C117_accounts_partial C117_root_violated loadAccounts_ok resolved_pageAccts","false of the code: an account such as Assets:Root is dropped (and its postings make loading fail); proved when no other account is called Root")
c("C118","partial","C118_page_partial C118_loaded_partial C118_loaded_fields C118_empty_violated loadCommodities_ok loadPrices_ok loadTransactions_ok","false of the code: a ledger without transactions cannot be loaded; proved for at least one transaction, amounts up to 2^53 units, years 100 to 9999, non-zero prices")
c("C119","partial","C119_input_shown C119_date_violated C119_date_partial C119_date_iff C119_range_violated C119_range_partial","false of the code: east of UTC every date is shown a day early and the first day of a range entered by the user is lost, west of UTC its last day; proved exactly what is shown in each zone (zones without daylight saving)")
c("C120","proved","C120_register C120_shown","sums up to 2^53 units in the account's commodity")
c("C121","partial","C121_other_violated C121_which C121_balanced C121_other_partial","false of the code: a lone posting of zero has none and its register throws; proved for transactions of one commodity with at least two postings")
c("C122","partial","C122_balance_violated C122_balance_partial page_postings resolveTxns_order","false of the code: transactions asserting a balance are moved to the end of their day after balances are computed; proved when they are written last")
c("C123","proved","C123_children C123_visible C123_names C123_loaded")
c("C124","proved","C124_totals C124_closed","balances of one commodity that together stay within 2^53 units")
c("C125","proved","C125_table depthFrom_level","balances of one commodity that together stay within 2^53 units")
c("C126","proved","C126_postings C126_register","running sums of one commodity within 2^53 units")
c("C127","proved","C127_path")
c("C128","partial","C128_views_violated C128_views_partial","false of the code: only accounts below one of six top level names can be viewed, and the page needs an account Assets; proved exactly that")
c("C129","proved","C129_period C129_register C129_once","postings of one commodity, partial sums within 2^53 units, years 100 to 9999")
c("C130","partial","C130_complete_violated C130_rows_sum C130_complete_partial C130_default_partial","false of the code: postings of a partial first period and of a period starting on the last date are dropped, postings after the last date in its period are included; proved exactly which are added (C130_rows_sum), and the claim for ranges starting with a period and ending inside one, as for months, quarters and years when the page opens")
c("C131","partial","C131_balances_violated C131_balances_partial C131_end_partial","false of the code: balances are zero until the first posting inside the table; proved when the account has no earlier posting, and exactly what is shown otherwise")
c("C132","partial","C132_columns C132_complete_partial C132_zero_violated C132_empty_violated","false of the code: a maximum of zero shows the smallest account only, and a range in which no period starts throws; proved for a maximum of at least one and ranges with a period")
c("C133","partial","C133_table_partial C133_cumulative_violated","false of the code: Cum.Total repeats Total; rows, cells and totals proved")
c("C134","proved","C134_top C134_compare","amounts that can be converted")
c("C135","proved","C135_bars C135_length widthOf_ok","amounts of the account's commodity below 2^53 units")
c("C136","proved","C136_rows C136_coarser starts_apart")
c("C137","proved","C137_balance_aligned C137_balance_printed","amounts below 10^50 (Width stops there) and commodities of at most 50 decimals")
c("C138","partial","C138_register_lines C138_zero_width C138_columns_violated C138_columns_partial","lines, order and contents proved; equal widths are false of the code: the column of totals is as wide as the last total, and descriptions over 50 characters or names that cannot be shortened overflow; proved otherwise")
c("C139","partial","C139_register_table C139_table_printed C139_table_aligned_partial C139_table_violated","false of the code: the amount of an empty category (no description) is printed as <nil>; proved when no category is empty, -g large enough and no amount has more than 50 digits")
c("C140","partial","C140_csv_reads_back C140_register_csv C140_csv_violated","false of the code: with an empty category the command panics; proved otherwise, for all fields, with a reader that follows RFC 4180")
c("C141","proved","C141_json_reads_back C140_register_csv","the record contents are those of C140_register_csv")
c("C142","proved","C142_reverse_price","prices whose reciprocal has less than 2^49 smallest units; the error is at most three quarters of a unit")
c("C143","partial","C143_there_and_back_violated C143_there_and_back_partial","false of the code: the reverse price is rounded to the decimals of the commodity, 1000.00 USD become 1330.00 CAD and then 997.50 USD; proved bound of the error")
c("C144","partial","C144_names_violated C144_names_partial","false of the code: the prefix is cut inside a component, CashBack and Back are both shown as Back on the register of Cash; proved for accounts whose names do not go on after the prefix without a colon")
c("C145","proved","C145_balance_converts C145_error","the order in which prices of a commodity are tried when there is no direct one is fixed for a run; the error bound is for direct prices and commodities with at least as many decimals as the currency")
c("C146","proved","C146_register_converts","with -r for payee filters that do not start with an exclamation mark (C26)")
c("C147","proved","C147_transactions C147_accounts C147_prices C147_commodities","for transactions between the years 100 and 9999 whose description and notes do not end in a carriage return, with notes only under a description and not indented further, at least one posting, and amounts with at most 50 decimals that fit 64 bits when written with all decimals")
c("C148","partial","C148_rejected_violated C148_format_again_partial","false of the code: 9223372036854775807 CAD is accepted and written with decimals, which is then rejected as too big; proved for files that declare no commodities of their own and transactions as in C147")
c("C149","proved","C149_register C149_sub_register C149_balances C149_aggregated C149_columns C149_other C149_worth","as long as the running sums are at most 2^53 smallest units; summer time is not modelled")
c("C150","partial","C150_own_accounts_violated C150_exactly_partial C150_several_files","false of the code: accounts declared in the file itself (or in an earlier file of the same run) are not resolved, and a posting to one of them panics; proved: exactly the files without such postings are formatted, and several files without declarations are formatted independently")
c("C151","proved","C151_refused C151_whole C151_ledger C151_short","")
c("C152","partial","C152_ofx_rules C152_csv_rules_violated C152_csv_rules_partial","ofx.rules proved; false of csv.rules: a long line right after the separator drops all rules for accounts silently")
c("C153","proved","C153_accepted_iff C153_values C153_same_run","the run for balance and register; number and date syntax are parameters")
c("C154","partial","C154_rest_ignored C154_before_partial C154_flags_last_violated","false of the code: everything behind the first argument is ignored without a message, flags too; proved for flags before it")
c("C155","partial","C155_default_partial C155_unknown C155_default_violated","false of the code: balance is assumed only without any argument, coin -l 1 is refused as an unknown command; proved for no arguments")
c("C156","proved","C156_balance_of_files C156_balance_printed C156_any_commodities","end to end: scanner, parser, includes, prices, accounts, transactions, flags, report, text; for -l other than 0 the account names must be plain (C23)")
c("C157","proved","C157_register_of_files","end to end: scanner, parser, includes, prices, accounts, transactions, flags, report, text")
c("C158","partial","C158_unit_violated C158_unit_partial","false of the code: with -r the running total, in the commodity of the account asked for, is labelled with the commodity of the account of the line; proved when the accounts shown have one commodity")
c("C159","proved","C159_commodity C159_loaded","")
c("C160","partial","C160_note_violated C160_account_partial","false of the code for notes of one character, which are refused; proved for everything else")
c("C161","proved","C161_price","one blank behind P; years of four digits")
c("C162","partial","C162_margin_violated C162_empty_note_violated C162_head_note_violated C162_transaction_partial","false of the code: a line at the margin right below a transaction is taken for a posting if it has a word behind a blank; a semicolon alone becomes a posting without account; a note on a first line without description becomes the description. Proved in any layout when the next line does not look like a posting")
c("C163","proved","C163_file","for the layouts of C159-C162")
c("C164","proved","C164_safe_id C164_distinct C164_digits C164_transaction C164_account C164_commodity C164_commodity_quoted C164_account_quoted C164_price","")
c("C165","partial","C165_reads_back_violated C165_reads_back_partial C165_reread C165_refused","false of the code: coin does not read quoted commodities; an amount with one, and the assertion and note behind it, silently disappear (C165_reread says exactly what is left). Proved for commodities without digits; two lost amounts are refused when transactions are resolved")
c("C166","partial","C166_account_violated C166_empty_violated C166_lookup_partial C166_account_partial C166_posts","false of the code: two accounts with the same id, or a statement without an id, make the account posted to depend on the iteration order of a map. Proved when at most one account carries the id of each statement; C166_posts holds for every successful import in any order")
c("C167","proved","C167_ids C167_ids_order","")
c("C168","proved","C168_opens C168_amounts","Opening is proved up to 15000 transactions: interest compounds, so with very many transactions an amount no longer fits the 64 bits of the parser. A directory that already holds coin files, -wb (C87) and -j are not included.")
c("C169","proved","C169_aggregated_of_files C169_not_both","Ledgers of one commodity. Where -g leaves accounts out, nothing is selected, or a category is empty the command crashes or drops numbers (C43, C44, C139, C140).")
c("C170","partial","C170_accounts_of_files C170_same_accounts_violated C170_same_accounts_partial","The listing is proved for all files; that it has all accounts is false of the code: the command reads only the files of commodities and accounts, so an account declared beside prices or transactions is missing.")
c("C171","proved","C171_tags_of_files C171_bad_expression","From the text of the files and the argument list to the bytes printed, for every ledger that loads.")
c("C172","proved","C172_duplicates C172_checks C172_writable","Duplicates are proved for ledgers whose amounts have the decimals of the commodity of their account; -c if the second amount of a two-posting transaction does not have more decimals than the first (see C06). File and line of a transaction are a parameter.")
c("C173","proved","C173_prices C173_list C173_latest","Amounts have at most 50 decimals (the table of powers); -p is proved if no currency is declared again after prices in it have been read. Quotes from the net (-q) and the text of a location are not modelled.")
c("C174","proved","C174_report C174_verdict C174_filled C174_alone C174_nested","The commands balance, register, tags, stats, accounts, commodities and version; accounts and commodities read fewer files when they run by themselves (C170, C173), so the text of these is that of the whole file. Tests that run format or modify are not modelled. The verdict without -v is for tests of one file: with several it is wrong (C94).")
c("C175","partial","C175_reproducible_violated C175_reproducible_partial C175_balance_partial C175_register_partial","False in general: a commodity with prices in two currencies is converted over the one a map yields first, so one ledger prints 2.00 CAD in one run and 3.00 CAD in the next. Proved where every commodity is priced in one currency and on no day twice with different values, for every command line of balance and register: the order of creation of accounts, of linking, of sorting and of walking them does not show. The order of the columns of an aggregated register (C169) and the text of locations are taken to be the same in both runs; no account name starts with a colon or with Root:. For a ledger of one commodity C175_balance_partial has the balance report, and C175_register_partial the plain register without -f, whatever the prices, column order and locations.")
c("C176","partial","C176_formatting_violated C176_loads C176_balance_partial C176_register_partial","False for the register: format writes a transaction with an asserted balance behind the others of its day, so that the rows of a day change places and an assertion that was correct becomes wrong (register Cash shows 10.00* before and 6.50* after). Proved: the formatted ledger loads and differs from the old one only in that the transactions of the file are the completed ones in the order written (C176_loads); in a ledger of one commodity balance prints the same text under all flags and filters (C176_balance_partial); if besides in the file transactions with an asserted balance already stand behind the others of their day, the plain register without -f is the same too (C176_register_partial: when both runs print). All for files of transactions alone that no other file includes.")
c("C177","proved","C177_balance_text C177_unique","ExactBalance names accounts, order, widths and every character of each line; C177_unique shows that only one text fits. Assumes a ledger in one commodity with at most 50 decimals and no account name starting with a colon or with Root:.")
c("C178","proved","C178_register_text C178_unique","ExactRegister names postings, order, running totals, widths and every character of each line; C178_unique shows that only one text fits (without -f, which adds file locations that are a parameter of the model). Covers every register that prints; whether it prints or stops with an error is C60 and C154. Assumes no account name starting with a colon or with Root:, and with -r a payee filter that does not start with an exclamation mark (the inverted one is applied wrongly there, see the register filter claims).")
c("C179","proved","C179_loads C179_moves C179_total C179_tags_only C179_idle","From the command line and the directory to the reports. C179_loads gives the items of the ledger afterwards; C179_moves the totals of all accounts without -pt; C179_total and C179_tags_only hold with every combination of flags. Assumes a ledger in one commodity, a file of transactions alone that no other file includes, and texts that read back as written (ModifyRun.settled: no description or note that the parser would cut differently); filters with -t are left out because modify changes tags.")
c("C180","partial","C180_count_violated C180_reported C180_count_partial","False: transactions that only get a tag by -tt: are changed but not counted (modify -a Food -tt: #moved reports 0). Proved: C180_reported says exactly which transactions are counted, under all flags; C180_count_partial: without -tt: the number is right, provided that postings are tagged or moved to another account.")
c("C181","proved","C181_modify_one_by_one C181_format_one_by_one C181_prints_what_it_writes C181_in_place","Equivalences between runs: each side succeeds exactly when the other does, with the same files and texts. For files that add transactions and nothing else; files that declare accounts or commodities are C150 and FormatOwn. C181_in_place ties the command line to the format -i of C176.")
c("C182","partial","C182_price_violated C182_price_partial C182_exact_partial C182_bound","False of the code: the product with the power of ten is cut, not rounded, so 1.15 CAD is recorded as 1.14 CAD. Proved: a price with at most the decimals of its currency is recorded as it is or one unit lower, exactly if it is a float64 (1.25), and any price to within one unit and the rounding of one multiplication. float64 values are exact fractions rounded to 53 bits; the service is a parameter.")
c("C183","proved","C183_quotes C183_read_back C183_unknown_crashes","For all answers of the service, which is a parameter, but a nil pointer without an error: C183_unknown_crashes shows that the command then crashes. Currencies have at most 18 decimals (beyond that pow10 panics).")
c("C184","partial","C184_same_accounts_violated C184_boxes_partial C184_one_level_more_partial","False of the code: with the same depth the table goes one level deeper than the chart (C184_same_accounts_violated). Proved: which boxes the chart has, and that the table shows the accounts and totals of the chart of one level more; balances of one commodity within 2^53 units.")
c("C185","partial","C185_area_violated C185_value_partial","False of the code: balances in the other direction count as 0 in the areas but are subtracted in the totals (C185_area_violated). Proved: the value is the sum of the balances in the normal direction, is never less than the total, and equals it exactly when no balance is in the other direction. The division of each balance by 10^decimals and the rounding of the floating point sum are left out.")
c("C186","partial","C186_independent_violated C186_looking_partial C186_in_order C186_tags_of_the_file","False of the code: modify and format -t in a test change the transactions in memory, and later tests print them changed (C186_independent_violated). Proved: when all tests but the last change nothing the tests are independent; in general a test runs on the transactions as left by those before it, with the tags of when they were loaded. Tests of other commands are not in these sequences.")
c("C187","proved","C187_modify C187_format","for transactions as they are loaded (no test before changed them) and files that declare no accounts themselves")
c("C188","proved","C188_balance_text C188_unique C188_one_text","for account names that do not begin with a colon and are not below Root: (PlainNames); commodities with at most 50 decimals")
c("C189","proved","C189_register_printed","with -r the payee expression is not inverted (NoBang, see C47); transactions with one posting crash the register (C40_register_violated)")
c("C190","proved","C190_same_total","the register is one without -n, -f and aggregation, whose lines end in the running total; the payee expression is not inverted (NoBang, see C47)")
c("C191","proved","C191_columns_add_up","without -c; under the conditions of C169 on the register")
c("C192","proved","C192_ranges_add_up","with -z and without -l, so that every account has a line")
c("C193","proved","C193_page_register page_postings_perm","the page transactions are those C118 shows to be on the page; the register without subaccounts and aggregation")
c("C194","proved","C194_books_balance opened_balanced","without -t, which selects single postings")
c("C195","proved","C195_page_family page_down","the transactions and accounts are those C118 and C117 show to be on the page; without aggregation; closed accounts are shown or none is closed by the end of the range")
c("C196","proved","C196_page_table page_balance","the transactions and accounts are those C118 and C117 show to be on the page; with asserted balances see C122; closed accounts are shown or none is closed by the end of the day")
c("C197","proved","C197_register_explains_balance page_last_total","the page transactions are those C118 shows to be on the page; with asserted balances see C122")
c("C198","proved","C198_same_numbers","with -z, so that accounts without totals have lines too")
c("C199","proved","C199_page_balances","the transactions and accounts are those C118 and C117 show to be on the page; with asserted balances see C122")
