#!/usr/bin/env python3
"""Write MANIFEST.json. A property that is false of the code is 'partial': its negation and what remains are proved."""
import json, os, re, sys
ROOT = os.path.join(os.path.dirname(os.path.abspath(__file__)), '..')
P = 'Norm.Props.'
CLAIMS = {
 'C01': ('proved', ['C01_fuzzy_v1'], ''),
 'C02': ('proved', ['C02_fuzzy_v2'], ''),
 'C03': ('proved', ['C03_v1_v2_same_decision'], ''),
 'C04': ('proved', ['C04_exact'], ''),
 'C05': ('proved', ['C05_prefix'], ''),
 'C06': ('proved', ['C06_suffix'], ''),
 'C07': ('proved', ['C07_equal'], ''),
 'C08': ('partial', ['C08_false', 'C08_inverse_partial', 'C08_fuzzy'],
         "False of the code: the query !'foo alone is collapsed into a non-extended query, which ignores the negation. "
         "C08_false refutes the full statement; C08_inverse_partial proves it for every other negated pattern; C08_fuzzy says what the exception returns."),
 'C09': ('proved', ['C09_and_of_ors', 'C09_and_of_ors_parsed'], ''),
 'C10': ('proved', ['C10_sum', 'C10_exists'], ''),
 'C11': ('proved', ['C11_empty'], ''),
 'C12': ('proved', ['C12_same_distance'], ''),
 'C13': ('proved', ['C13_append_only'], ''),
 'C14': ('partial', ['C14_false', 'C14_none_untouched_partial', 'C14_leftover'],
         "False of the code when a later condition fails after an earlier one has matched. Refuted; proved for queries of one "
         "condition; C14_leftover says exactly what is left in the buffer."),
 'C15': ('proved', ['C15_disjoint'], ''),
 'C16': ('proved', ['C16_slices'], ''),
 'C17': ('proved', ['C17_v1_spells', 'C17_C21_C22_v1'], ''),
 'C18': ('partial', ['C18_false', 'C18_gap', 'C18_v2_spells_partial', 'C18_v2_short_partial', 'C18_v2_one_partial', 'C18_v2_any_partial'],
         "False of the code for alignments with long gaps (the traceback can highlight a character that does not match). "
         "Refuted; proved whenever the scores stay positive, in particular for short candidates and one-character queries; "
         "for all matches, that something is highlighted, not more than the query has characters, and that the last character highlighted matches."),
 'C19': ('proved', ['C19_block'], ''),
 'C20': ('partial', ['C20_false', 'C20_sound_partial', 'C20_kept_partial', 'C20_union_partial', 'C20_fuzzy_partial'],
         "False of the code: inserting a range that covers several present ones loses bytes. Refuted; soundness and the union "
         "for the cases in which nothing is lost are proved."),
 'C21': ('proved', ['C21_v1_window', 'C17_C21_C22_v1'], ''),
 'C22': ('proved', ['C22_v1_score', 'C17_C21_C22_v1'], ''),
 'C23': ('proved', ['C23_v2_single'], ''),
 'C24': ('partial', ['C24_false', 'C24_short_partial', 'C24_tight_partial', 'C24_margin_partial', 'C24_sharp', 'C24_grows'],
         "False of the code (a gap is charged as started again after a skipped match). Refuted; proved for queries of one or two "
         "characters and when V1's alignment skips no match, and with a margin for all, which is the least for up to three characters "
         "and has to grow with the query."),
 'C25': ('proved', ['C25_parse_total'], ''),
 'C26': ('partial', ['C26_false', 'C26_parse_not_extended_partial', 'C26_panics_iff'],
         "False of the code for strings longer than the parser's buffer (64 characters for a new parser). Refuted; C26_panics_iff "
         "says exactly when it panics."),
 'C27': ('proved', ['C27_distance_total'], ''),
 'C28': ('proved', ['C28_history_independent'], ''),
 'C29': ('proved', ['C29_parse_history_independent'], ''),
 'C30': ('proved', ['C30_words'], ''),
 'C31': ('proved', ['C31_conditions', 'C31_representation'], ''),
 'C32': ('proved', ['C32_sigils'], ''),
 'C33': ('proved', ['C33_literally'], ''),
 'C34': ('proved', ['C34_candidate', 'C34_query'], 'For the query, more is proved: equal distances and ranges.'),
 'C35': ('proved', ['C35_sensitive_implies'], ''),
 'C36': ('proved', ['C36_smart'], ''),
 'C37': ('proved', ['C37_more', 'C37_ascii'], ''),
 'C38': ('proved', ['C38_normalize'], ''),
 'C39': ('proved', ['C39_ascii_path_v1', 'C39_ascii_path_v2'], ''),
 'C40': ('proved', ['C40_order', 'C40_best_first'], ''),
 'C41': ('proved', ['C41_schemes'], ''),
 'C42': ('proved', ['C42_fuzzy_bounds', 'C42_block_bounds', 'C42_extended_bound', 'C42_no_overflow',
                    'C42_no_overflow_strings'],
         'The overflow part compares the model in unbounded integers with a second model whose arithmetic is checked.'),
 'C43': ('proved', ['C43_candidate_monotone'], ''),
 'C44': ('proved', ['C44_conditions', 'C44_alternatives', 'C44_deletion'], ''),
 'C45': ('proved', ['C45_nested'], ''),
 'C46': ('partial', ['C46_false', 'C46_two_partial', 'C46_best_partial'],
         "False of the code: the class of the preceding character is stale when the search restarts. Refuted; "
         "proved for two-character patterns and for candidates in which no two adjacent characters match the pattern's first; "
         "C52 says what happens otherwise."),
 'C47': ('proved', ['C47_no_fuzzy_same'], ''),
 'C48': ('partial', ['C48_false', 'C48_tight_partial', 'C48_margin_partial', 'C48_sharp'],
         "False of the code: the first row keeps only the last match of the first query character. Refuted; proved for alignments "
         "that skip no match of that character, and for all up to 17, which is the least such margin."),
 'C49': ('proved', ['C49_last_write_wins'], ''),
 'C50': ('proved', ['C50_v2_table', 'C50_grid_exists'], ''),
 'C51': ('partial', ['C51_false', 'C51_part_partial', 'C51_prefix_partial', 'C51_sharp', 'C51_sharp_all'],
         "False of the code: the penalty of a gap that no match follows in its row depends on the gap before it. Refuted; "
         "proved with a margin of 2 per character but the first (the least for every length), for a contiguous part of the query, and for the whole query if no gap is "
         "long and the score is large."),
 'C52': ('proved', ['C52_seen', 'C52_seen_exists'], ''),
 'C53': ('proved', ['C53_next', 'C53_negated'], ''),
 'C54': ('proved', ['C54_replaced'], ''),
 'C55': ('partial', ['C55_false', 'C55_partial', 'C55_only'],
         "False of the code: of most accented letters only the lower case form is in the tables. Refuted; proved for ASCII queries "
         "and letters listed in both cases; C55_only says that it fails for every other accented letter."),
 'C56': ('partial', ['C56_empty', 'C56_false', 'C56_partial', 'C56_short_partial', 'C56_sharp'],
         "The first part is proved. The second is false of FzfV1: a long gap makes the score negative. Refuted; proved for FzfV2 "
         "and for queries without fuzzy patterns, with a margin of 16, and for FzfV1 and candidates of at most 15 characters for every query character and "
         "2 more, which is the largest such length."),
 'C57': ('proved', ['C57_parse', 'C57_ranges', 'C57_distance', 'C57_unique'], ''),
 'C58': ('proved', ['C58_shortfall', 'C58_sharp', 'C58_grows'], ''),
 'C59': ('partial', ['C59_false', 'C59_bound', 'C59_start_partial', 'C59_word_v2'],
         "False of the code for queries that start with a digit or a symbol. Refuted; the bound on all scores, and that it is attained "
         "by candidates that start with the query (V1, V2) or have it at the start of a word (V2), are proved."),
 'C60': ('partial', ['C60_false', 'C60_v1_partial', 'C60_v2_margin_partial', 'C60_sharp'],
         "False of FzfV2: appended matches make an earlier gap more expensive. Refuted; proved for FzfV1, with equality of distance and ranges, and for FzfV2 up to a margin (none for one character, 2 for two, and 1 less than the scheme's largest bonus for each further one), the least for up to four characters; C64_after is the equality for FzfV2 when nothing appended matches the query's last character."),
 'C61': ('proved', ['C61_conditions', 'C61_alternatives', 'C61_one'], 'C61_one: if no two alternatives of a condition match, their order does not matter to distance and ranges.'),
 'C62': ('proved', ['C62_parse', 'C62_parse_not_extended', 'C62_clone', 'C62_reads_unique'], ''),
 'C63': ('proved', ['C63_distance', 'C63_ranges', 'C63_calls', 'C63_parse', 'C63_parse_not_extended'], ''),
 'C64': ('proved', ['C64_after', 'C64_before', 'C64_exact'], ''),
 'C65': ('proved', ['C65', 'C65_distance', 'C65_ranges', 'C65_new', 'C65_small', 'C65_parser'], ''),
 'C66': ('proved', ['C66_metric', 'C66_settings', 'C66_parser', 'C66_distance'], ''),
 'C67': ('partial', ['C67_output', 'C67_false', 'C67_kinds_false', 'C67_texts_partial', 'C67_plain_partial'],
         "False of the code: a lone fuzzy word is printed as it is and may look like several conditions. Refuted; proved for two lone fuzzy words (which then "
         "return the same for every candidate), for two other queries, and for texts without quotes. Also refuted: that what is printed "
         "determines which candidates match, as neither negations nor the kinds of patterns are shown."),
 'C68': ('partial', ['C68_matrix', 'C68_matrix_usize', 'C68_ranges_false', 'C68_ranges_partial', 'C68_ranges_iff', 'C68_candidate'],
         "False of the code: printing a matrix panics if a score is negative (and only then, which is proved), and the commas between ranges depend on "
         "the ranges' lengths because the loop variable hides the slice. Proved: the shape of the table; that printing ranges does not panic "
         "and is right as long as nothing was inserted, and otherwise exactly for which lengths; that a candidate prints as its text."),
 'C69': ('partial', ['C69_result', 'C69_false', 'C69_partial', 'C69_fuzzy', 'C69_ranges', 'C69_product'],
         "False of the code: an exact pattern (also a negated one) is compared anew at every occurrence of its first character, so that the steps grow with the product of the "
         "lengths; refuted for every constant. Proved: linear for all other queries, and for every query the product of the lengths."),
 'C70': ('proved', ['C70', 'C70_queryLen', 'C70_text', 'C70_lower', 'C70_attained'], ''),
 'C71': ('partial', ['C71_false', 'C71_conditions_false', 'C71_partial', 'C71_small', 'C71_first_partial'],
         "False of the code for exact patterns, as C69, and for queries of several conditions even if all patterns are fuzzy, as the conditions that match before the one that does "
         "not are scored in full; both refuted for every constant. Proved for one fuzzy pattern, up to the growth of one buffer the first time that a pattern has more characters than "
         "all before and than 128, and for a first condition that does not match, if none of its patterns is exact or negated and fuzzy."),
 'C72': ('proved', ['C72', 'C72_not_extended', 'C72_result'], ''),
 'C73': ('proved', ['C73_fuzz'], ''),
 'C74': ('proved', ['C74_search', 'C74_unique', 'C74_history', 'C74_permutation'], ''),
 'C75': ('partial', ['C75_false', 'C75_cases', 'C75_raw_partial', 'C75_word_partial', 'C75_typing_partial', 'C75_start_partial', 'C75_among'],
         "False of the query language: an alternative, a longer negated word, characters after a $, or an escaped space add results (and, of the code, a word after a lone negated fuzzy "
         "pattern, as C08). Refuted in each of these cases; proved for queries that are not extended, for a further word, a longer word and the first characters of a word in all "
         "other cases. That searching among the results then suffices is proved."),
 'C76': ('proved', ['C76_parse', 'C76_parse_not_extended'], ''),
 'C77': ('partial', ['C77_false', 'C77_grown_false', 'C77_cloned_false', 'C77_partial'],
         "False of the code: the patterns of earlier queries are left in the buffer and are copied by clone, after the characters they refer to have been freed because the buffer grew, "
         "or because they are those of the parser that was cloned. Refuted in both cases; proved for programs that drop no parser and in which no buffer is moved. What can be read "
         "through a query is not affected (C62)."),
 'C78': ('proved', ['C78_reachable', 'C78_parse', 'C78_parse_not_extended', 'C78_distance', 'C78_distance_and_ranges'], ''),
 'C79': ('partial', ['C79_false', 'C79_parse_partial', 'C79_parse_room', 'C79_distance_partial', 'C79_distance_and_ranges_partial', 'C79_distance_room', 'C79_ranges_room', 'C79_v1_room', 'C79_sizes'],
         "False of the code: the matrices of FzfV2 have a cell for each pair of a query character and a candidate character. Refuted on 32-bit and 64-bit systems with as much memory as "
         "can be; proved if there is room for the matrices and for the other vectors. The conditions for parsing and for distance are exact (there is a panic exactly if they fail), "
         "and needed for distance_and_ranges, which also has to have room for ranges: for those it returns, and never more than for half the bytes of the candidate."),
 'C80': ('proved', ['C80_queries', 'C80_written', 'C80_pattern', 'C80_any_text', 'C80_not_any_text'], ''),
 'C81': ('proved', ['C81_metric', 'C81_distance', 'C81_distance_and_ranges', 'C81_parser', 'C81_parse', 'C81_parse_leaves', 'C81_memory', 'C81_others', 'C81_grow_leaves'], ''),
 'C82': ('proved', ['C82_same', 'C82_same_sizes', 'C82_longer', 'C82_used', 'C82_again', 'C82_again_ranges'], ''),
 'C83': ('proved', ['C83_steps', 'C83_ranges', 'C83_grows', 'C83_ids', 'C83_ids_suffix', 'C83_all', 'C83_common'], ''),
 'C84': ('partial', ['C84_false', 'C84_false_distances', 'C84_same', 'C84_partial'],
         "False of the benchmarks: their text has spaces, so that each of the queries is several patterns, most of them fuzzy, and the distance depends on the metric. Refuted with the "
         "text used; proved for every text without the parser's special characters, and that without fuzzy patterns the two metrics return the same after the same steps."),
 'C85': ('proved', ['C85', 'C85_plain', 'C85_match', 'C85_negated'], ''),
 'C86': ('proved', ['C86', 'C86_equal', 'C86_free'], ''),
 'C87': ('partial', ['C87_false', 'C87_word_partial', 'C87_opposite', 'C87_alternative', 'C87_repeated'],
         "False of the code for a word that starts with !': alone it is not negated, as an alternative it is. Refuted (the two then give opposite answers for every candidate); proved for every other word, "
         "and for any condition of any extended query that repeats an alternative."),
 'C88': ('partial', ['C88_false', 'C88_distance', 'C88_highlights', 'C88_highlights_partial'],
         "False of the code for the ranges: a block that was cut when it was merged can be continued when it is inserted again. Refuted; the distance is "
         "proved in full, C88_highlights says when the ranges stay the same, and they do if the condition is the first one or its match fuzzy or negated."),
 'C89': ('partial', ['C89_false', 'C89_decision', 'C89_score_partial', 'C89_ranges_partial', 'C89_margin_partial', 'C89_added', 'C89_added_v2'],
         "false for fuzzy patterns of three or more characters in FzfV2 (`abb` in `ab_abb_`). Proved in full for FzfV1 and for shorter or other patterns; for the rest with the "
         "margin 7(n-2), which is the least for 3, 4 and 5 characters. C89_added and C89_added_v2 bound what Default adds."),
 'C90': ('proved', ['C90_distance', 'C90_ranges'], ''),
 'C91': ('partial', ['C91_false', 'C91_false_path', 'C91_decision', 'C91_history', 'C91_history_ranges', 'C91_partial', 'C91_ranges_partial', 'C91_margin_partial'],
         "False for queries of three or more characters in FzfV2 (`abb`: `/ab_abb_` is ahead of ` ab_abb_` with the scheme Default). The decision and the scheme History are proved in full, "
         "everything for FzfV1 and for at most two characters; for the rest with margins 9(n-2) for Default and 8(n-2) for Path, the least for 3 and 4 characters."),
 'C92': ('proved', ['C92_exact', 'C92_exact_ranges', 'C92_fuzzy', 'C92_fuzzy_ranges', 'C92_fuzzy_v2', 'C92_equal'],
         "That the characters the normalization replaces are no numbers is a hypothesis on the Unicode tables, which are a parameter of the model."),
 'C93': ('proved', ['C93_parse', 'C93_raw', 'C93_distance', 'C93_ranges'],
  'Exchanges describes the exchange of letters and digits, renameQuery the query in the other characters. With normalization on, accented letters would have to be exchanged as well; the hypothesis excludes them, and an example shows why.'),
 'C94': ('proved', ['C94_parse', 'C94_distance', 'C94_ranges', 'C94_ascii', 'C94_backslash'],
  'A build is a value of Unicode: the classification functions of std and cfg(windows). C94_backslash is a witness that the exception is one.'),
 'C95': ('proved', ['C95_distance', 'C95_ranges', 'C95_case', 'C95_normalization', 'C95_blocks'], ''),
 'C96': ('proved', ['C96_insert', 'C96_std', 'C27_distance_total'],
  'The search in the model panics on a slice without strictly increasing starts, so that C27_distance_total is that there is none.'),
 'C97': ('proved', ['C97_query', 'C97_candidate', 'C97_characters'], ''),
 'C98': ('proved', ['C98', 'C98_matches', 'C98_unescaped', 'C98_needed'],
  'C98_needed has a witness for each of the two restrictions.'),
}
ids = [json.loads(l)['id'] for l in open(os.path.join(ROOT, 'properties.jsonl'))]
src = ''
d = os.path.join(ROOT, 'lean', 'Verif', 'Props')
for f in sorted(os.listdir(d)):
    src += open(os.path.join(d, f)).read()
names = set(re.findall(r'^theorem (\S+)', src, re.M))
bad = [i for i in ids if i not in CLAIMS] + [i for i in CLAIMS if i not in ids]
bad += [t for c in CLAIMS.values() for t in c[1] if t not in names]
used = {t for c in CLAIMS.values() for t in c[1]}
bad += [t for t in names if re.match(r'C\d\d', t) and t not in used]
if bad:
    sys.exit('inconsistent: %s' % bad)
out = {'claims': [{'property': i, 'status': CLAIMS[i][0], 'theorems': [P + t for t in CLAIMS[i][1]], 'note': CLAIMS[i][2]}
                  for i in ids]}
json.dump(out, open(os.path.join(ROOT, 'MANIFEST.json'), 'w'), indent=1)
