{
 "claims": [
  {
   "property": "C01",
   "status": "proved",
   "theorems": [
    "Norm.Props.C01_fuzzy_v1"
   ],
   "note": ""
  },
  {
   "property": "C02",
   "status": "proved",
   "theorems": [
    "Norm.Props.C02_fuzzy_v2"
   ],
   "note": ""
  },
  {
   "property": "C03",
   "status": "proved",
   "theorems": [
    "Norm.Props.C03_v1_v2_same_decision"
   ],
   "note": ""
  },
  {
   "property": "C04",
   "status": "proved",
   "theorems": [
    "Norm.Props.C04_exact"
   ],
   "note": ""
  },
  {
   "property": "C05",
   "status": "proved",
   "theorems": [
    "Norm.Props.C05_prefix"
   ],
   "note": ""
  },
  {
   "property": "C06",
   "status": "proved",
   "theorems": [
    "Norm.Props.C06_suffix"
   ],
   "note": ""
  },
  {
   "property": "C07",
   "status": "proved",
   "theorems": [
    "Norm.Props.C07_equal"
   ],
   "note": ""
  },
  {
   "property": "C08",
   "status": "partial",
   "theorems": [
    "Norm.Props.C08_false",
    "Norm.Props.C08_inverse_partial",
    "Norm.Props.C08_fuzzy"
   ],
   "note": "False of the code: the query !'foo alone is collapsed into a non-extended query, which ignores the negation. C08_false refutes the full statement; C08_inverse_partial proves it for every other negated pattern; C08_fuzzy says what the exception returns."
  },
  {
   "property": "C09",
   "status": "proved",
   "theorems": [
    "Norm.Props.C09_and_of_ors",
    "Norm.Props.C09_and_of_ors_parsed"
   ],
   "note": ""
  },
  {
   "property": "C10",
   "status": "proved",
   "theorems": [
    "Norm.Props.C10_sum",
    "Norm.Props.C10_exists"
   ],
   "note": ""
  },
  {
   "property": "C11",
   "status": "proved",
   "theorems": [
    "Norm.Props.C11_empty"
   ],
   "note": ""
  },
  {
   "property": "C12",
   "status": "proved",
   "theorems": [
    "Norm.Props.C12_same_distance"
   ],
   "note": ""
  },
  {
   "property": "C13",
   "status": "proved",
   "theorems": [
    "Norm.Props.C13_append_only"
   ],
   "note": ""
  },
  {
   "property": "C14",
   "status": "partial",
   "theorems": [
    "Norm.Props.C14_false",
    "Norm.Props.C14_none_untouched_partial",
    "Norm.Props.C14_leftover"
   ],
   "note": "False of the code when a later condition fails after an earlier one has matched. Refuted; proved for queries of one condition; C14_leftover says exactly what is left in the buffer."
  },
  {
   "property": "C15",
   "status": "proved",
   "theorems": [
    "Norm.Props.C15_disjoint"
   ],
   "note": ""
  },
  {
   "property": "C16",
   "status": "proved",
   "theorems": [
    "Norm.Props.C16_slices"
   ],
   "note": ""
  },
  {
   "property": "C17",
   "status": "proved",
   "theorems": [
    "Norm.Props.C17_v1_spells",
    "Norm.Props.C17_C21_C22_v1"
   ],
   "note": ""
  },
  {
   "property": "C18",
   "status": "partial",
   "theorems": [
    "Norm.Props.C18_false",
    "Norm.Props.C18_gap",
    "Norm.Props.C18_v2_spells_partial",
    "Norm.Props.C18_v2_short_partial",
    "Norm.Props.C18_v2_one_partial",
    "Norm.Props.C18_v2_any_partial"
   ],
   "note": "False of the code for alignments with long gaps (the traceback can highlight a character that does not match). Refuted; proved whenever the scores stay positive, in particular for short candidates and one-character queries; for all matches, that something is highlighted, not more than the query has characters, and that the last character highlighted matches."
  },
  {
   "property": "C19",
   "status": "proved",
   "theorems": [
    "Norm.Props.C19_block"
   ],
   "note": ""
  },
  {
   "property": "C20",
   "status": "partial",
   "theorems": [
    "Norm.Props.C20_false",
    "Norm.Props.C20_sound_partial",
    "Norm.Props.C20_kept_partial",
    "Norm.Props.C20_union_partial",
    "Norm.Props.C20_fuzzy_partial"
   ],
   "note": "False of the code: inserting a range that covers several present ones loses bytes. Refuted; soundness and the union for the cases in which nothing is lost are proved."
  },
  {
   "property": "C21",
   "status": "proved",
   "theorems": [
    "Norm.Props.C21_v1_window",
    "Norm.Props.C17_C21_C22_v1"
   ],
   "note": ""
  },
  {
   "property": "C22",
   "status": "proved",
   "theorems": [
    "Norm.Props.C22_v1_score",
    "Norm.Props.C17_C21_C22_v1"
   ],
   "note": ""
  },
  {
   "property": "C23",
   "status": "proved",
   "theorems": [
    "Norm.Props.C23_v2_single"
   ],
   "note": ""
  },
  {
   "property": "C24",
   "status": "partial",
   "theorems": [
    "Norm.Props.C24_false",
    "Norm.Props.C24_short_partial",
    "Norm.Props.C24_tight_partial",
    "Norm.Props.C24_margin_partial",
    "Norm.Props.C24_sharp",
    "Norm.Props.C24_grows"
   ],
   "note": "False of the code (a gap is charged as started again after a skipped match). Refuted; proved for queries of one or two characters and when V1's alignment skips no match, and with a margin for all, which is the least for up to three characters and has to grow with the query."
  },
  {
   "property": "C25",
   "status": "proved",
   "theorems": [
    "Norm.Props.C25_parse_total"
   ],
   "note": ""
  },
  {
   "property": "C26",
   "status": "partial",
   "theorems": [
    "Norm.Props.C26_false",
    "Norm.Props.C26_parse_not_extended_partial",
    "Norm.Props.C26_panics_iff"
   ],
   "note": "False of the code for strings longer than the parser's buffer (64 characters for a new parser). Refuted; C26_panics_iff says exactly when it panics."
  },
  {
   "property": "C27",
   "status": "proved",
   "theorems": [
    "Norm.Props.C27_distance_total"
   ],
   "note": ""
  },
  {
   "property": "C28",
   "status": "proved",
   "theorems": [
    "Norm.Props.C28_history_independent"
   ],
   "note": ""
  },
  {
   "property": "C29",
   "status": "proved",
   "theorems": [
    "Norm.Props.C29_parse_history_independent"
   ],
   "note": ""
  },
  {
   "property": "C30",
   "status": "proved",
   "theorems": [
    "Norm.Props.C30_words"
   ],
   "note": ""
  },
  {
   "property": "C31",
   "status": "proved",
   "theorems": [
    "Norm.Props.C31_conditions",
    "Norm.Props.C31_representation"
   ],
   "note": ""
  },
  {
   "property": "C32",
   "status": "proved",
   "theorems": [
    "Norm.Props.C32_sigils"
   ],
   "note": ""
  },
  {
   "property": "C33",
   "status": "proved",
   "theorems": [
    "Norm.Props.C33_literally"
   ],
   "note": ""
  },
  {
   "property": "C34",
   "status": "proved",
   "theorems": [
    "Norm.Props.C34_candidate",
    "Norm.Props.C34_query"
   ],
   "note": "For the query, more is proved: equal distances and ranges."
  },
  {
   "property": "C35",
   "status": "proved",
   "theorems": [
    "Norm.Props.C35_sensitive_implies"
   ],
   "note": ""
  },
  {
   "property": "C36",
   "status": "proved",
   "theorems": [
    "Norm.Props.C36_smart"
   ],
   "note": ""
  },
  {
   "property": "C37",
   "status": "proved",
   "theorems": [
    "Norm.Props.C37_more",
    "Norm.Props.C37_ascii"
   ],
   "note": ""
  },
  {
   "property": "C38",
   "status": "proved",
   "theorems": [
    "Norm.Props.C38_normalize"
   ],
   "note": ""
  },
  {
   "property": "C39",
   "status": "proved",
   "theorems": [
    "Norm.Props.C39_ascii_path_v1",
    "Norm.Props.C39_ascii_path_v2"
   ],
   "note": ""
  },
  {
   "property": "C40",
   "status": "proved",
   "theorems": [
    "Norm.Props.C40_order",
    "Norm.Props.C40_best_first"
   ],
   "note": ""
  },
  {
   "property": "C41",
   "status": "proved",
   "theorems": [
    "Norm.Props.C41_schemes"
   ],
   "note": ""
  },
  {
   "property": "C42",
   "status": "proved",
   "theorems": [
    "Norm.Props.C42_fuzzy_bounds",
    "Norm.Props.C42_block_bounds",
    "Norm.Props.C42_extended_bound",
    "Norm.Props.C42_no_overflow",
    "Norm.Props.C42_no_overflow_strings"
   ],
   "note": "The overflow part compares the model in unbounded integers with a second model whose arithmetic is checked."
  },
  {
   "property": "C43",
   "status": "proved",
   "theorems": [
    "Norm.Props.C43_candidate_monotone"
   ],
   "note": ""
  },
  {
   "property": "C44",
   "status": "proved",
   "theorems": [
    "Norm.Props.C44_conditions",
    "Norm.Props.C44_alternatives",
    "Norm.Props.C44_deletion"
   ],
   "note": ""
  },
  {
   "property": "C45",
   "status": "proved",
   "theorems": [
    "Norm.Props.C45_nested"
   ],
   "note": ""
  },
  {
   "property": "C46",
   "status": "partial",
   "theorems": [
    "Norm.Props.C46_false",
    "Norm.Props.C46_two_partial",
    "Norm.Props.C46_best_partial"
   ],
   "note": "False of the code: the class of the preceding character is stale when the search restarts. Refuted; proved for two-character patterns and for candidates in which no two adjacent characters match the pattern's first; C52 says what happens otherwise."
  },
  {
   "property": "C47",
   "status": "proved",
   "theorems": [
    "Norm.Props.C47_no_fuzzy_same"
   ],
   "note": ""
  },
  {
   "property": "C48",
   "status": "partial",
   "theorems": [
    "Norm.Props.C48_false",
    "Norm.Props.C48_tight_partial",
    "Norm.Props.C48_margin_partial",
    "Norm.Props.C48_sharp"
   ],
   "note": "False of the code: the first row keeps only the last match of the first query character. Refuted; proved for alignments that skip no match of that character, and for all up to 17, which is the least such margin."
  },
  {
   "property": "C49",
   "status": "proved",
   "theorems": [
    "Norm.Props.C49_last_write_wins"
   ],
   "note": ""
  },
  {
   "property": "C50",
   "status": "proved",
   "theorems": [
    "Norm.Props.C50_v2_table",
    "Norm.Props.C50_grid_exists"
   ],
   "note": ""
  },
  {
   "property": "C51",
   "status": "partial",
   "theorems": [
    "Norm.Props.C51_false",
    "Norm.Props.C51_part_partial",
    "Norm.Props.C51_prefix_partial",
    "Norm.Props.C51_sharp",
    "Norm.Props.C51_sharp_all"
   ],
   "note": "False of the code: the penalty of a gap that no match follows in its row depends on the gap before it. Refuted; proved with a margin of 2 per character but the first (the least for every length), for a contiguous part of the query, and for the whole query if no gap is long and the score is large."
  },
  {
   "property": "C52",
   "status": "proved",
   "theorems": [
    "Norm.Props.C52_seen",
    "Norm.Props.C52_seen_exists"
   ],
   "note": ""
  },
  {
   "property": "C53",
   "status": "proved",
   "theorems": [
    "Norm.Props.C53_next",
    "Norm.Props.C53_negated"
   ],
   "note": ""
  },
  {
   "property": "C54",
   "status": "proved",
   "theorems": [
    "Norm.Props.C54_replaced"
   ],
   "note": ""
  },
  {
   "property": "C55",
   "status": "partial",
   "theorems": [
    "Norm.Props.C55_false",
    "Norm.Props.C55_partial",
    "Norm.Props.C55_only"
   ],
   "note": "False of the code: of most accented letters only the lower case form is in the tables. Refuted; proved for ASCII queries and letters listed in both cases; C55_only says that it fails for every other accented letter."
  },
  {
   "property": "C56",
   "status": "partial",
   "theorems": [
    "Norm.Props.C56_empty",
    "Norm.Props.C56_false",
    "Norm.Props.C56_partial",
    "Norm.Props.C56_short_partial",
    "Norm.Props.C56_sharp"
   ],
   "note": "The first part is proved. The second is false of FzfV1: a long gap makes the score negative. Refuted; proved for FzfV2 and for queries without fuzzy patterns, with a margin of 16, and for FzfV1 and candidates of at most 15 characters for every query character and 2 more, which is the largest such length."
  },
  {
   "property": "C57",
   "status": "proved",
   "theorems": [
    "Norm.Props.C57_parse",
    "Norm.Props.C57_ranges",
    "Norm.Props.C57_distance",
    "Norm.Props.C57_unique"
   ],
   "note": ""
  },
  {
   "property": "C58",
   "status": "proved",
   "theorems": [
    "Norm.Props.C58_shortfall",
    "Norm.Props.C58_sharp",
    "Norm.Props.C58_grows"
   ],
   "note": ""
  },
  {
   "property": "C59",
   "status": "partial",
   "theorems": [
    "Norm.Props.C59_false",
    "Norm.Props.C59_bound",
    "Norm.Props.C59_start_partial",
    "Norm.Props.C59_word_v2"
   ],
   "note": "False of the code for queries that start with a digit or a symbol. Refuted; the bound on all scores, and that it is attained by candidates that start with the query (V1, V2) or have it at the start of a word (V2), are proved."
  },
  {
   "property": "C60",
   "status": "partial",
   "theorems": [
    "Norm.Props.C60_false",
    "Norm.Props.C60_v1_partial",
    "Norm.Props.C60_v2_margin_partial",
    "Norm.Props.C60_sharp"
   ],
   "note": "False of FzfV2: appended matches make an earlier gap more expensive. Refuted; proved for FzfV1, with equality of distance and ranges, and for FzfV2 up to a margin (none for one character, 2 for two, and 1 less than the scheme's largest bonus for each further one), the least for up to four characters; C64_after is the equality for FzfV2 when nothing appended matches the query's last character."
  },
  {
   "property": "C61",
   "status": "proved",
   "theorems": [
    "Norm.Props.C61_conditions",
    "Norm.Props.C61_alternatives",
    "Norm.Props.C61_one"
   ],
   "note": "C61_one: if no two alternatives of a condition match, their order does not matter to distance and ranges."
  },
  {
   "property": "C62",
   "status": "proved",
   "theorems": [
    "Norm.Props.C62_parse",
    "Norm.Props.C62_parse_not_extended",
    "Norm.Props.C62_clone",
    "Norm.Props.C62_reads_unique"
   ],
   "note": ""
  },
  {
   "property": "C63",
   "status": "proved",
   "theorems": [
    "Norm.Props.C63_distance",
    "Norm.Props.C63_ranges",
    "Norm.Props.C63_calls",
    "Norm.Props.C63_parse",
    "Norm.Props.C63_parse_not_extended"
   ],
   "note": ""
  },
  {
   "property": "C64",
   "status": "proved",
   "theorems": [
    "Norm.Props.C64_after",
    "Norm.Props.C64_before",
    "Norm.Props.C64_exact"
   ],
   "note": ""
  },
  {
   "property": "C65",
   "status": "proved",
   "theorems": [
    "Norm.Props.C65",
    "Norm.Props.C65_distance",
    "Norm.Props.C65_ranges",
    "Norm.Props.C65_new",
    "Norm.Props.C65_small",
    "Norm.Props.C65_parser"
   ],
   "note": ""
  },
  {
   "property": "C66",
   "status": "proved",
   "theorems": [
    "Norm.Props.C66_metric",
    "Norm.Props.C66_settings",
    "Norm.Props.C66_parser",
    "Norm.Props.C66_distance"
   ],
   "note": ""
  },
  {
   "property": "C67",
   "status": "partial",
   "theorems": [
    "Norm.Props.C67_output",
    "Norm.Props.C67_false",
    "Norm.Props.C67_kinds_false",
    "Norm.Props.C67_texts_partial",
    "Norm.Props.C67_plain_partial"
   ],
   "note": "False of the code: a lone fuzzy word is printed as it is and may look like several conditions. Refuted; proved for two lone fuzzy words (which then return the same for every candidate), for two other queries, and for texts without quotes. Also refuted: that what is printed determines which candidates match, as neither negations nor the kinds of patterns are shown."
  },
  {
   "property": "C68",
   "status": "partial",
   "theorems": [
    "Norm.Props.C68_matrix",
    "Norm.Props.C68_matrix_usize",
    "Norm.Props.C68_ranges_false",
    "Norm.Props.C68_ranges_partial",
    "Norm.Props.C68_ranges_iff",
    "Norm.Props.C68_candidate"
   ],
   "note": "False of the code: printing a matrix panics if a score is negative (and only then, which is proved), and the commas between ranges depend on the ranges' lengths because the loop variable hides the slice. Proved: the shape of the table; that printing ranges does not panic and is right as long as nothing was inserted, and otherwise exactly for which lengths; that a candidate prints as its text."
  },
  {
   "property": "C69",
   "status": "partial",
   "theorems": [
    "Norm.Props.C69_result",
    "Norm.Props.C69_false",
    "Norm.Props.C69_partial",
    "Norm.Props.C69_fuzzy",
    "Norm.Props.C69_ranges",
    "Norm.Props.C69_product"
   ],
   "note": "False of the code: an exact pattern (also a negated one) is compared anew at every occurrence of its first character, so that the steps grow with the product of the lengths; refuted for every constant. Proved: linear for all other queries, and for every query the product of the lengths."
  },
  {
   "property": "C70",
   "status": "proved",
   "theorems": [
    "Norm.Props.C70",
    "Norm.Props.C70_queryLen",
    "Norm.Props.C70_text",
    "Norm.Props.C70_lower",
    "Norm.Props.C70_attained"
   ],
   "note": ""
  },
  {
   "property": "C71",
   "status": "partial",
   "theorems": [
    "Norm.Props.C71_false",
    "Norm.Props.C71_conditions_false",
    "Norm.Props.C71_partial",
    "Norm.Props.C71_small",
    "Norm.Props.C71_first_partial"
   ],
   "note": "False of the code for exact patterns, as C69, and for queries of several conditions even if all patterns are fuzzy, as the conditions that match before the one that does not are scored in full; both refuted for every constant. Proved for one fuzzy pattern, up to the growth of one buffer the first time that a pattern has more characters than all before and than 128, and for a first condition that does not match, if none of its patterns is exact or negated and fuzzy."
  },
  {
   "property": "C72",
   "status": "proved",
   "theorems": [
    "Norm.Props.C72",
    "Norm.Props.C72_not_extended",
    "Norm.Props.C72_result"
   ],
   "note": ""
  },
  {
   "property": "C73",
   "status": "proved",
   "theorems": [
    "Norm.Props.C73_fuzz"
   ],
   "note": ""
  },
  {
   "property": "C74",
   "status": "proved",
   "theorems": [
    "Norm.Props.C74_search",
    "Norm.Props.C74_unique",
    "Norm.Props.C74_history",
    "Norm.Props.C74_permutation"
   ],
   "note": ""
  },
  {
   "property": "C75",
   "status": "partial",
   "theorems": [
    "Norm.Props.C75_false",
    "Norm.Props.C75_cases",
    "Norm.Props.C75_raw_partial",
    "Norm.Props.C75_word_partial",
    "Norm.Props.C75_typing_partial",
    "Norm.Props.C75_start_partial",
    "Norm.Props.C75_among"
   ],
   "note": "False of the query language: an alternative, a longer negated word, characters after a $, or an escaped space add results (and, of the code, a word after a lone negated fuzzy pattern, as C08). Refuted in each of these cases; proved for queries that are not extended, for a further word, a longer word and the first characters of a word in all other cases. That searching among the results then suffices is proved."
  },
  {
   "property": "C76",
   "status": "proved",
   "theorems": [
    "Norm.Props.C76_parse",
    "Norm.Props.C76_parse_not_extended"
   ],
   "note": ""
  },
  {
   "property": "C77",
   "status": "partial",
   "theorems": [
    "Norm.Props.C77_false",
    "Norm.Props.C77_grown_false",
    "Norm.Props.C77_cloned_false",
    "Norm.Props.C77_partial"
   ],
   "note": "False of the code: the patterns of earlier queries are left in the buffer and are copied by clone, after the characters they refer to have been freed because the buffer grew, or because they are those of the parser that was cloned. Refuted in both cases; proved for programs that drop no parser and in which no buffer is moved. What can be read through a query is not affected (C62)."
  },
  {
   "property": "C78",
   "status": "proved",
   "theorems": [
    "Norm.Props.C78_reachable",
    "Norm.Props.C78_parse",
    "Norm.Props.C78_parse_not_extended",
    "Norm.Props.C78_distance",
    "Norm.Props.C78_distance_and_ranges"
   ],
   "note": ""
  },
  {
   "property": "C79",
   "status": "partial",
   "theorems": [
    "Norm.Props.C79_false",
    "Norm.Props.C79_parse_partial",
    "Norm.Props.C79_parse_room",
    "Norm.Props.C79_distance_partial",
    "Norm.Props.C79_distance_and_ranges_partial",
    "Norm.Props.C79_distance_room",
    "Norm.Props.C79_ranges_room",
    "Norm.Props.C79_v1_room",
    "Norm.Props.C79_sizes"
   ],
   "note": "False of the code: the matrices of FzfV2 have a cell for each pair of a query character and a candidate character. Refuted on 32-bit and 64-bit systems with as much memory as can be; proved if there is room for the matrices and for the other vectors. The conditions for parsing and for distance are exact (there is a panic exactly if they fail), and needed for distance_and_ranges, which also has to have room for ranges: for those it returns, and never more than for half the bytes of the candidate."
  },
  {
   "property": "C80",
   "status": "proved",
   "theorems": [
    "Norm.Props.C80_queries",
    "Norm.Props.C80_written",
    "Norm.Props.C80_pattern",
    "Norm.Props.C80_any_text",
    "Norm.Props.C80_not_any_text"
   ],
   "note": ""
  },
  {
   "property": "C81",
   "status": "proved",
   "theorems": [
    "Norm.Props.C81_metric",
    "Norm.Props.C81_distance",
    "Norm.Props.C81_distance_and_ranges",
    "Norm.Props.C81_parser",
    "Norm.Props.C81_parse",
    "Norm.Props.C81_parse_leaves",
    "Norm.Props.C81_memory",
    "Norm.Props.C81_others",
    "Norm.Props.C81_grow_leaves"
   ],
   "note": ""
  },
  {
   "property": "C82",
   "status": "proved",
   "theorems": [
    "Norm.Props.C82_same",
    "Norm.Props.C82_same_sizes",
    "Norm.Props.C82_longer",
    "Norm.Props.C82_used",
    "Norm.Props.C82_again",
    "Norm.Props.C82_again_ranges"
   ],
   "note": ""
  },
  {
   "property": "C83",
   "status": "proved",
   "theorems": [
    "Norm.Props.C83_steps",
    "Norm.Props.C83_ranges",
    "Norm.Props.C83_grows",
    "Norm.Props.C83_ids",
    "Norm.Props.C83_ids_suffix",
    "Norm.Props.C83_all",
    "Norm.Props.C83_common"
   ],
   "note": ""
  },
  {
   "property": "C84",
   "status": "partial",
   "theorems": [
    "Norm.Props.C84_false",
    "Norm.Props.C84_false_distances",
    "Norm.Props.C84_same",
    "Norm.Props.C84_partial"
   ],
   "note": "False of the benchmarks: their text has spaces, so that each of the queries is several patterns, most of them fuzzy, and the distance depends on the metric. Refuted with the text used; proved for every text without the parser's special characters, and that without fuzzy patterns the two metrics return the same after the same steps."
  },
  {
   "property": "C85",
   "status": "proved",
   "theorems": [
    "Norm.Props.C85",
    "Norm.Props.C85_plain",
    "Norm.Props.C85_match",
    "Norm.Props.C85_negated"
   ],
   "note": ""
  },
  {
   "property": "C86",
   "status": "proved",
   "theorems": [
    "Norm.Props.C86",
    "Norm.Props.C86_equal",
    "Norm.Props.C86_free"
   ],
   "note": ""
  },
  {
   "property": "C87",
   "status": "partial",
   "theorems": [
    "Norm.Props.C87_false",
    "Norm.Props.C87_word_partial",
    "Norm.Props.C87_opposite",
    "Norm.Props.C87_alternative",
    "Norm.Props.C87_repeated"
   ],
   "note": "False of the code for a word that starts with !': alone it is not negated, as an alternative it is. Refuted (the two then give opposite answers for every candidate); proved for every other word, and for any condition of any extended query that repeats an alternative."
  },
  {
   "property": "C88",
   "status": "partial",
   "theorems": [
    "Norm.Props.C88_false",
    "Norm.Props.C88_distance",
    "Norm.Props.C88_highlights",
    "Norm.Props.C88_highlights_partial"
   ],
   "note": "False of the code for the ranges: a block that was cut when it was merged can be continued when it is inserted again. Refuted; the distance is proved in full, C88_highlights says when the ranges stay the same, and they do if the condition is the first one or its match fuzzy or negated."
  },
  {
   "property": "C89",
   "status": "partial",
   "theorems": [
    "Norm.Props.C89_false",
    "Norm.Props.C89_decision",
    "Norm.Props.C89_score_partial",
    "Norm.Props.C89_ranges_partial",
    "Norm.Props.C89_margin_partial",
    "Norm.Props.C89_added",
    "Norm.Props.C89_added_v2"
   ],
   "note": "false for fuzzy patterns of three or more characters in FzfV2 (`abb` in `ab_abb_`). Proved in full for FzfV1 and for shorter or other patterns; for the rest with the margin 7(n-2), which is the least for 3, 4 and 5 characters. C89_added and C89_added_v2 bound what Default adds."
  },
  {
   "property": "C90",
   "status": "proved",
   "theorems": [
    "Norm.Props.C90_distance",
    "Norm.Props.C90_ranges"
   ],
   "note": ""
  },
  {
   "property": "C91",
   "status": "partial",
   "theorems": [
    "Norm.Props.C91_false",
    "Norm.Props.C91_false_path",
    "Norm.Props.C91_decision",
    "Norm.Props.C91_history",
    "Norm.Props.C91_history_ranges",
    "Norm.Props.C91_partial",
    "Norm.Props.C91_ranges_partial",
    "Norm.Props.C91_margin_partial"
   ],
   "note": "False for queries of three or more characters in FzfV2 (`abb`: `/ab_abb_` is ahead of ` ab_abb_` with the scheme Default). The decision and the scheme History are proved in full, everything for FzfV1 and for at most two characters; for the rest with margins 9(n-2) for Default and 8(n-2) for Path, the least for 3 and 4 characters."
  },
  {
   "property": "C92",
   "status": "proved",
   "theorems": [
    "Norm.Props.C92_exact",
    "Norm.Props.C92_exact_ranges",
    "Norm.Props.C92_fuzzy",
    "Norm.Props.C92_fuzzy_ranges",
    "Norm.Props.C92_fuzzy_v2",
    "Norm.Props.C92_equal"
   ],
   "note": "That the characters the normalization replaces are no numbers is a hypothesis on the Unicode tables, which are a parameter of the model."
  },
  {
   "property": "C93",
   "status": "proved",
   "theorems": [
    "Norm.Props.C93_parse",
    "Norm.Props.C93_raw",
    "Norm.Props.C93_distance",
    "Norm.Props.C93_ranges"
   ],
   "note": "Exchanges describes the exchange of letters and digits, renameQuery the query in the other characters. With normalization on, accented letters would have to be exchanged as well; the hypothesis excludes them, and an example shows why."
  },
  {
   "property": "C94",
   "status": "proved",
   "theorems": [
    "Norm.Props.C94_parse",
    "Norm.Props.C94_distance",
    "Norm.Props.C94_ranges",
    "Norm.Props.C94_ascii",
    "Norm.Props.C94_backslash"
   ],
   "note": "A build is a value of Unicode: the classification functions of std and cfg(windows). C94_backslash is a witness that the exception is one."
  },
  {
   "property": "C95",
   "status": "proved",
   "theorems": [
    "Norm.Props.C95_distance",
    "Norm.Props.C95_ranges",
    "Norm.Props.C95_case",
    "Norm.Props.C95_normalization",
    "Norm.Props.C95_blocks"
   ],
   "note": ""
  },
  {
   "property": "C96",
   "status": "proved",
   "theorems": [
    "Norm.Props.C96_insert",
    "Norm.Props.C96_std",
    "Norm.Props.C27_distance_total"
   ],
   "note": "The search in the model panics on a slice without strictly increasing starts, so that C27_distance_total is that there is none."
  },
  {
   "property": "C97",
   "status": "proved",
   "theorems": [
    "Norm.Props.C97_query",
    "Norm.Props.C97_candidate",
    "Norm.Props.C97_characters"
   ],
   "note": ""
  },
  {
   "property": "C98",
   "status": "proved",
   "theorems": [
    "Norm.Props.C98",
    "Norm.Props.C98_matches",
    "Norm.Props.C98_unescaped",
    "Norm.Props.C98_needed"
   ],
   "note": "C98_needed has a witness for each of the two restrictions."
  }
 ]
}