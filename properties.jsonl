{"id": "C01", "title": "Fuzzy match decision (FzfV1)", "statement": "For a non-empty query parsed with parse_not_extended, FzfV1::distance returns Some exactly when the query's characters occur in the candidate in order (as a subsequence, not necessarily contiguous), two characters being compared by the metric's configured case sensitivity and normalization.", "quantifier": "every metric instance reachable through the API, every non-empty query, every candidate string", "why_tests_cant": "queries, candidates and their alignments are unbounded; a test fixes finitely many pairs", "anchors": ["src/metrics/fzf/fzf_v1.rs:FzfV1::fuzzy, forward_pass", "src/metrics/fzf/fzf.rs:Fzf::distance", "src/candidate.rs:find_first_from"]}
{"id": "C02", "title": "Fuzzy match decision (FzfV2)", "statement": "The same as C01 for FzfV2: Some exactly when the query is a subsequence of the candidate.", "quantifier": "every metric instance reachable through the API, every non-empty query, every candidate string", "why_tests_cant": "the V2 code path (pre-filter, matrix, single-character shortcut) must agree with the definition for every pair of strings", "anchors": ["src/metrics/fzf/fzf_v2.rs:FzfV2::fuzzy, matches, fuzzy_single_char"]}
{"id": "C03", "title": "V1 and V2 accept the same candidates", "statement": "With the same settings, FzfV1::distance and FzfV2::distance return Some for exactly the same (query, candidate) pairs, for extended and non-extended queries.", "quantifier": "every query produced by the parser, every candidate, every equal configuration of the two metrics", "why_tests_cant": "two different algorithms must coincide on an unbounded domain", "anchors": ["src/metrics/fzf/fzf_v1.rs:fuzzy", "src/metrics/fzf/fzf_v2.rs:fuzzy", "src/metrics/fzf/fzf.rs:score,distance"]}
{"id": "C04", "title": "Exact patterns are substring search", "statement": "The query 'foo (quote prefix) matches a candidate exactly when foo occurs in it as a contiguous block of characters (under the configured character comparison).", "quantifier": "every pattern text, every candidate, every configuration, V1 and V2", "why_tests_cant": "the hand-written restart loop of exact_match must not miss or invent an occurrence for any overlap structure of pattern and candidate", "anchors": ["src/metrics/fzf/fzf.rs:exact_match"]}
{"id": "C05", "title": "Prefix patterns", "statement": "The query ^foo matches exactly when, after ignoring the surplus of leading spaces the candidate has over the pattern, the candidate starts with foo; it fails if the candidate has fewer leading spaces than the pattern.", "quantifier": "every pattern text, every candidate, every configuration, V1 and V2", "why_tests_cant": "arbitrary numbers of leading spaces and arbitrary text", "anchors": ["src/metrics/fzf/fzf.rs:prefix_match, ignored_candidate_leading_spaces"]}
{"id": "C06", "title": "Suffix patterns", "statement": "The query foo$ matches exactly when, after ignoring the surplus of trailing spaces the candidate has over the pattern, the candidate ends with foo.", "quantifier": "every pattern text, every candidate, every configuration, V1 and V2", "why_tests_cant": "arbitrary numbers of trailing spaces and arbitrary text", "anchors": ["src/metrics/fzf/fzf.rs:suffix_match, ignored_candidate_trailing_spaces"]}
{"id": "C07", "title": "Equality patterns", "statement": "The query ^foo$ matches exactly when the candidate equals foo after ignoring the candidate's surplus of leading and trailing spaces over the pattern's.", "quantifier": "every pattern text, every candidate, every configuration, V1 and V2", "why_tests_cant": "arbitrary text and padding, including all-space candidates where the two trimmed ends cross", "anchors": ["src/metrics/fzf/fzf.rs:equal_match"]}
{"id": "C08", "title": "Negated patterns are complements", "statement": "A query made of one pattern prefixed with ! matches exactly the candidates that the same pattern without ! would not match, with score 0 and no highlighted range.", "quantifier": "every pattern kind, every pattern text, every candidate, every configuration", "why_tests_cant": "complementation is a statement about all candidates", "anchors": ["src/metrics/fzf/fzf.rs:Fzf::score,distance", "src/metrics/fzf/query.rs:FzfQuery::new_extended, Pattern::parse"]}
{"id": "C09", "title": "Extended queries are ANDs of ORs", "statement": "An extended query with conditions D1..Dn, each an OR of patterns, matches a candidate exactly when every condition has at least one pattern that matches it.", "quantifier": "every list of conditions, every candidate, every configuration, V1 and V2", "why_tests_cant": "arbitrary numbers of conditions and alternatives", "anchors": ["src/metrics/fzf/fzf.rs:Fzf::distance", "src/metrics/fzf/query.rs:Condition"]}
{"id": "C10", "title": "Extended score is additive over first matching alternatives", "statement": "When an extended query matches, its score is the sum over the conditions of the score of the first alternative (in query order) that matches; alternatives that do not match contribute neither score nor ranges.", "quantifier": "every list of conditions, every candidate, every configuration", "why_tests_cant": "arbitrary numbers of conditions and alternatives", "anchors": ["src/metrics/fzf/fzf.rs:Fzf::distance (find_map, total_score)"]}
{"id": "C11", "title": "Empty queries match everything", "statement": "A query whose parse yields no pattern (empty string, only spaces, only operators such as | or !) matches every candidate with score 0 and appends no range.", "quantifier": "every query without patterns, every candidate, every configuration", "why_tests_cant": "all candidates and all operator-only query strings", "anchors": ["src/metrics/fzf/query.rs:FzfQuery::is_empty", "src/metrics/fzf/fzf.rs:Fzf::distance", "src/metrics/fzf/parser.rs:parse"]}
{"id": "C12", "title": "distance and distance_and_ranges agree", "statement": "distance and distance_and_ranges return the same Option<Distance> for the same arguments.", "quantifier": "every query, candidate, configuration and ranges buffer, V1 and V2", "why_tests_cant": "const-generic specialisation touches every branch of every match kind", "anchors": ["src/metric.rs:Metric::distance_and_ranges", "src/metrics/fzf/fzf.rs", "src/metrics/fzf/fzf_v1.rs", "src/metrics/fzf/fzf_v2.rs"]}
{"id": "C13", "title": "The ranges buffer is append-only", "statement": "distance_and_ranges never modifies the ranges already present in the buffer: the old content is a prefix of the new content.", "quantifier": "every buffer content, query, candidate, configuration, whether or not the query matches", "why_tests_cant": "insertion, merging and removal shift elements of a vector whose prefix must be preserved for all contents", "anchors": ["src/matched_ranges.rs:MatchedRanges", "src/metric.rs:Metric::distance_and_ranges"]}
{"id": "C14", "title": "No match leaves the ranges buffer untouched", "statement": "If distance_and_ranges returns None the buffer is left exactly as it was.", "quantifier": "every buffer, query, candidate and configuration", "why_tests_cant": "must hold on every failing execution path", "anchors": ["src/metric.rs:61", "src/metrics/fzf/fzf.rs:Fzf::distance"]}
{"id": "C15", "title": "Appended ranges never overlap", "statement": "The ranges appended by one distance_and_ranges call are non-empty, sorted by start and pairwise disjoint (in fact separated by at least one byte).", "quantifier": "every query, candidate, configuration and buffer, V1 and V2", "why_tests_cant": "the order and shape of insertions is unbounded", "anchors": ["src/metric.rs:56", "src/matched_ranges.rs:insert"]}
{"id": "C16", "title": "Appended ranges are valid slices of the candidate", "statement": "Every appended range start..end satisfies start < end <= candidate.len() and both ends are UTF-8 character boundaries, so slicing the candidate with it never panics.", "quantifier": "every query, candidate (ASCII or not), configuration, V1 and V2", "why_tests_cant": "byte offsets are computed from character offsets of arbitrary multi-byte text; the fuzz target only samples this", "anchors": ["src/candidate.rs:to_byte_offset,to_byte_range", "fuzz/fuzz_targets/fzf.rs", "src/metrics/fzf/fzf.rs:compute_score", "src/metrics/fzf/fzf_v2.rs:matched_ranges"]}
{"id": "C17", "title": "FzfV1 fuzzy ranges spell the query", "statement": "For a fuzzy query that matches, the characters covered by the ranges FzfV1 appends are exactly as many as the query's characters and match them one by one in order.", "quantifier": "every fuzzy query, every candidate, every configuration", "why_tests_cant": "relates two greedy passes and a third greedy scan for all strings", "anchors": ["src/metrics/fzf/fzf_v1.rs:fuzzy,forward_pass,backward_pass", "src/metrics/fzf/fzf.rs:compute_score"]}
{"id": "C18", "title": "FzfV2 fuzzy ranges spell the query", "statement": "For a fuzzy query that matches, the characters covered by the ranges FzfV2 appends are exactly as many as the query's characters and match them one by one in order.", "quantifier": "every fuzzy query, every candidate, every configuration", "why_tests_cant": "the traceback walks a score matrix of unbounded size", "anchors": ["src/metrics/fzf/fzf_v2.rs:score,score_remaining_rows,matched_ranges"]}
{"id": "C19", "title": "Exact, prefix, suffix and equality matches highlight one occurrence", "statement": "When a single non-negated exact, prefix, suffix or equality pattern matches, exactly one range is appended and the characters it covers match the pattern's text one by one.", "quantifier": "every pattern text, every candidate, every configuration, V1 and V2", "why_tests_cant": "char-to-byte conversion and choice of occurrence for arbitrary text", "anchors": ["src/metrics/fzf/fzf.rs:exact_match,prefix_match,suffix_match,equal_match", "src/candidate.rs:to_byte_range"]}
{"id": "C20", "title": "Highlights of a multi-condition query are the union of the conditions' highlights", "statement": "For an extended query that matches, the set of bytes covered by the appended ranges is exactly the union of the bytes highlighted for the matching alternative of each condition.", "quantifier": "every query with several conditions, every candidate, every configuration", "why_tests_cant": "interleavings of overlapping, touching and nested ranges are unbounded", "anchors": ["src/matched_ranges.rs:insert", "src/metrics/fzf/fzf.rs:Fzf::distance"]}
{"id": "C21", "title": "FzfV1 match window", "statement": "The part of the candidate FzfV1 matches ends at the earliest position where the query has been seen as a subsequence, and starts at the latest position from which that end still contains the query; of the alignments starting there, the leftmost is the one scored and highlighted.", "quantifier": "every fuzzy query, every matching candidate, every configuration", "why_tests_cant": "minimality/maximality over all alignments", "anchors": ["src/metrics/fzf/fzf_v1.rs:forward_pass,backward_pass"]}
{"id": "C22", "title": "FzfV1 score is the score of the highlighted alignment", "statement": "FzfV1's score for a fuzzy query equals the documented scoring (match points, boundary/camel/consecutive bonuses, doubled first bonus, affine gap penalties) evaluated on the highlighted character positions.", "quantifier": "every fuzzy query, every matching candidate, every configuration", "why_tests_cant": "the running score is updated along an unbounded scan", "anchors": ["src/metrics/fzf/fzf.rs:compute_score", "src/metrics/fzf/scoring.rs", "src/metrics/fzf/mod.rs:bonus,penalty"]}
{"id": "C23", "title": "FzfV2 single-character queries pick the best occurrence", "statement": "For a one-character fuzzy query FzfV2's score is the maximum over all occurrences of the character of 16 + 2*bonus, and the highlighted range is the leftmost occurrence attaining it.", "quantifier": "every character, every candidate, every configuration", "why_tests_cant": "maximum over an unbounded set of occurrences", "anchors": ["src/metrics/fzf/fzf_v2.rs:fuzzy_single_char"]}
{"id": "C24", "title": "FzfV2 is never worse than FzfV1", "statement": "FzfV2 considers all alignments: for every fuzzy query its distance is less than or equal to FzfV1's (its score is at least FzfV1's).", "quantifier": "every fuzzy query, every matching candidate, every configuration", "why_tests_cant": "optimality over exponentially many alignments", "anchors": ["src/metrics/fzf/fzf_v2.rs:score,score_first_row,score_remaining_rows", "src/metrics/fzf/fzf_v1.rs"]}
{"id": "C25", "title": "Parsing never panics", "statement": "FzfParser::parse returns for every query string: it terminates and never indexes its reusable buffers out of bounds.", "quantifier": "every query string, every parser state left by earlier calls", "why_tests_cant": "buffer sizes are estimated from the byte length of the query (len, len/2+1); the estimate must dominate for all strings", "anchors": ["src/metrics/fzf/parser.rs:FzfParser::parse, Patterns, Words"]}
{"id": "C26", "title": "parse_not_extended never panics", "statement": "FzfParser::parse_not_extended returns for every query string.", "quantifier": "every query string, every parser state left by earlier calls", "why_tests_cant": "query length is unbounded; the shipped tests only use short queries", "anchors": ["src/metrics/fzf/parser.rs:FzfParser::parse_not_extended"]}
{"id": "C27", "title": "distance never panics", "statement": "distance and distance_and_ranges return for every query produced by the parser and every candidate: every index, slice, unwrap and expect in the matching code is in range, and every loop terminates.", "quantifier": "every metric instance reachable through the API, every parsed query, every candidate, V1 and V2", "why_tests_cant": "dozens of unchecked-looking indexings whose safety depends on invariants between passes", "anchors": ["src/metrics/fzf/fzf.rs", "src/metrics/fzf/fzf_v1.rs", "src/metrics/fzf/fzf_v2.rs", "src/metrics/fzf/slab.rs", "src/candidate.rs"]}
{"id": "C28", "title": "Results do not depend on the metric's history", "statement": "The result of a distance or distance_and_ranges call depends only on the current settings, the query, the candidate and (for ranges) the buffer: reusing one metric instance for many calls gives the results a fresh instance with the same settings gives.", "quantifier": "every history of API calls on a metric instance, V1 and V2", "why_tests_cant": "scratch slabs keep stale data of earlier, larger calls; every history is a different stale state", "anchors": ["src/metrics/fzf/slab.rs", "src/metrics/fzf/fzf_v1.rs", "src/metrics/fzf/fzf_v2.rs", "src/metrics/fzf/candidate.rs:bonus_at"]}
{"id": "C29", "title": "Parse results do not depend on the parser's history", "statement": "The FzfQuery returned by parse depends only on the query string, not on what the same parser parsed before; so does that of parse_not_extended whenever it returns.", "quantifier": "every history of parse calls on one parser", "why_tests_cant": "reused char, pattern and condition buffers hold stale data of every earlier query", "anchors": ["src/metrics/fzf/parser.rs:FzfParser"]}
{"id": "C30", "title": "Word splitting and escaped spaces", "statement": "parse splits the query at runs of unescaped spaces; a space preceded by a backslash is a literal space of the word (the backslash is dropped); words are never empty and no other character is changed or lost.", "quantifier": "every query string", "why_tests_cant": "arbitrary runs of spaces and backslashes in arbitrary text", "anchors": ["src/metrics/fzf/parser.rs:Words", "src/utils.rs:strip_leading_spaces"]}
{"id": "C31", "title": "OR binds tighter than AND", "statement": "In the parsed query consecutive patterns belong to the same condition exactly when at least one | word stands between them; pattern order is preserved; no condition and no pattern is empty.", "quantifier": "every sequence of words", "why_tests_cant": "arbitrary interleavings of patterns, pipes and empty patterns", "anchors": ["src/metrics/fzf/parser.rs:Patterns"]}
{"id": "C32", "title": "Pattern sigils", "statement": "Each word is classified exactly as documented: leading ! negates, leading ' selects exact matching (fuzzy after !), leading ^ prefix, trailing $ suffix, both equality; the sigils are removed from the text, nothing else is, and words consisting only of sigils are dropped.", "quantifier": "every word", "why_tests_cant": "all combinations of sigils with arbitrary text", "anchors": ["src/metrics/fzf/query.rs:Pattern::parse"]}
{"id": "C33", "title": "Any text can be searched for by escaping it", "statement": "For every non-empty text t there is a query string, namely ' followed by t with its spaces backslash-escaped (and a final $ doubled), that parses to the single exact pattern t.", "quantifier": "every non-empty text", "why_tests_cant": "round-trip over all strings", "anchors": ["src/metrics/fzf/parser.rs:Words", "src/metrics/fzf/query.rs:Pattern::parse"]}
{"id": "C34", "title": "Case-insensitive search ignores ASCII case", "statement": "With CaseSensitivity::Insensitive, changing the ASCII case of any letters of the candidate or of the query text does not change whether the candidate matches.", "quantifier": "every query, candidate, any set of case flips, V1 and V2", "why_tests_cant": "all case variants of all strings, across the ASCII byte-search and Unicode paths", "anchors": ["src/utils.rs:case_insensitive_eq, ascii_letter_flip_case", "src/candidate.rs:find_first_ascii", "src/case_sensitivity.rs"]}
{"id": "C35", "title": "Sensitive matches are insensitive matches", "statement": "For a fuzzy, exact, prefix, suffix or equality pattern, a candidate that matches with CaseSensitivity::Sensitive also matches with Smart and with Insensitive.", "quantifier": "every non-negated pattern, every candidate, V1 and V2", "why_tests_cant": "inclusion over all strings", "anchors": ["src/utils.rs:char_eq", "src/metrics/fzf/fzf_v1.rs:char_eq", "src/metrics/fzf/fzf_v2.rs:char_eq"]}
{"id": "C36", "title": "Smart case", "statement": "With CaseSensitivity::Smart a pattern is compared case-sensitively exactly when its text contains an uppercase character, otherwise case-insensitively; the result equals that of the metric explicitly set to Sensitive or Insensitive.", "quantifier": "every query, candidate, V1 and V2", "why_tests_cant": "all query texts", "anchors": ["src/metrics/fzf/fzf_v1.rs:char_eq,fuzzy", "src/metrics/fzf/fzf_v2.rs:char_eq,fuzzy", "src/metrics/fzf/query.rs:Pattern"]}
{"id": "C37", "title": "Normalization only adds matches and never affects ASCII candidates", "statement": "Enabling candidate normalization never turns a match of a non-negated pattern into a non-match, and for ASCII-only candidates it changes neither distance nor ranges.", "quantifier": "every query, candidate, configuration, V1 and V2", "why_tests_cant": "inclusion/equality over all strings", "anchors": ["src/utils.rs:normalize_candidate_char", "src/normalize.rs:normalize,is_normalized"]}
{"id": "C38", "title": "Normalization table", "statement": "normalize maps each listed Latin letter to the listed ASCII letter, leaves every other character unchanged, always yields an ASCII letter or its argument, and is idempotent. No integer that is not a character is made a char (transmute) while the tables are built.", "quantifier": "every Unicode scalar value", "why_tests_cant": "1.1 million characters, three compile-time linearised tables; the tests only check the listed entries", "anchors": ["src/normalize.rs:linearize_batch,normalize,is_normalized"]}
{"id": "C39", "title": "The ASCII fast path is transparent", "statement": "Matching an ASCII candidate through the byte-slice representation gives the same match decision, score and ranges as the general character representation would.", "quantifier": "every query, every ASCII candidate, every configuration, V1 and V2", "why_tests_cant": "two representations, two search back ends (memchr vs. character comparison)", "anchors": ["src/candidate.rs:Candidate::Ascii", "src/metrics/fzf/fzf.rs:distance"]}
{"id": "C40", "title": "Distances are totally ordered, best first", "statement": "FzfDistance's ordering is a total order consistent with equality in which a higher score is a lower distance, so sorting ascending puts the highest score first.", "quantifier": "all pairs and triples of distances", "why_tests_cant": "order laws quantify over all triples", "anchors": ["src/metrics/fzf/distance.rs:Ord for FzfDistance", "src/metric.rs:Metric::Distance"]}
{"id": "C41", "title": "Scoring schemes", "statement": "set_scoring_scheme stores a scheme from which the same FzfScheme is recovered; every positional bonus lies between 0 and 10, so caching it in one byte loses nothing, and a letter after a path separator gets a strictly larger bonus than after a space exactly under the Path scheme.", "quantifier": "every scheme, every pair of character classes, every character pair", "why_tests_cant": "all combinations of characters, classes and schemes", "anchors": ["src/metrics/fzf/scheme.rs", "src/metrics/fzf/scoring.rs", "src/metrics/fzf/slab.rs:Bonus"]}
{"id": "C42", "title": "Scores are bounded and do not overflow", "statement": "A fuzzy, exact, prefix, suffix or equality match of an m-character pattern in an n-character candidate scores at most 26*m + 10; FzfV2 fuzzy scores are at least 16; V1 scores are at least 16*m - 3*n; no call overflows: with every sum, difference and product of scores checked to fit an i64 and the counter of consecutive matches checked to fit a u32, every call returns what it returns in unbounded integers, provided the candidate and the patterns have at most N characters, the patterns fewer than 2^32 - 1, and (number of conditions + 1) * (40 * N + 40) < 2^63.", "quantifier": "every pattern, candidate, configuration", "why_tests_cant": "bounds over all inputs", "anchors": ["src/metrics/fzf/fzf.rs:compute_score", "src/metrics/fzf/fzf_v2.rs:score_first_row,score_remaining_rows", "src/metrics/fzf/distance.rs:Score"]}
{"id": "C43", "title": "Matching is monotone in the candidate", "statement": "If a fuzzy or exact pattern matches a candidate it also matches every candidate obtained by adding text before and/or after it.", "quantifier": "every pattern, candidate, prefix and suffix text, V1 and V2", "why_tests_cant": "all extensions of all strings", "anchors": ["src/metrics/fzf/fzf.rs:exact_match", "src/metrics/fzf/fzf_v1.rs", "src/metrics/fzf/fzf_v2.rs"]}
{"id": "C44", "title": "Refining a query filters, widening it adds", "statement": "Adding a condition to an extended query never adds a match; adding an alternative to a condition never removes one; deleting characters from a fuzzy query never removes a match.", "quantifier": "every query, condition, alternative, candidate", "why_tests_cant": "all queries and their refinements", "anchors": ["src/metrics/fzf/fzf.rs:Fzf::distance"]}
{"id": "C45", "title": "Pattern kinds are nested", "statement": "For the same text, case handling and candidate: an equality match implies a prefix match and a suffix match; a prefix or suffix match implies an exact match; an exact match implies a fuzzy match.", "quantifier": "every text, candidate, configuration, V1 and V2", "why_tests_cant": "implications between five search procedures over all strings", "anchors": ["src/metrics/fzf/fzf.rs", "src/metrics/fzf/fzf_v1.rs", "src/metrics/fzf/fzf_v2.rs"]}
{"id": "C46", "title": "Exact matches choose the best-placed occurrence", "statement": "An exact pattern highlights and scores the leftmost occurrence whose positional bonus is at least the word-boundary bonus, or, if there is none, the leftmost occurrence with the largest positional bonus.", "quantifier": "every pattern text, every candidate, every configuration", "why_tests_cant": "all occurrences of all patterns", "anchors": ["src/metrics/fzf/fzf.rs:exact_match (best_bonus, prev_class)"]}
{"id": "C47", "title": "V1 and V2 agree on queries without fuzzy patterns", "statement": "For queries containing only exact, prefix, suffix and equality patterns (negated or not) FzfV1 and FzfV2 return the same distance and append the same ranges.", "quantifier": "every such query, candidate, buffer and equal configuration", "why_tests_cant": "all queries", "anchors": ["src/metrics/fzf/fzf.rs:Fzf::score"]}
{"id": "C48", "title": "FzfV2's score dominates every alignment's basic score", "statement": "FzfV2's fuzzy score is at least, for every alignment of the query in the candidate, the sum of 16 + positional bonus over the matched characters (first bonus doubled) minus 3 per skipped character between the first and last matched ones.", "quantifier": "every fuzzy query, every candidate, every alignment, every configuration", "why_tests_cant": "maximum over exponentially many alignments", "anchors": ["src/metrics/fzf/fzf_v2.rs:score_first_row,score_remaining_rows"]}
{"id": "C49", "title": "Settings are independent and last write wins", "statement": "set_case_sensitivity, set_candidate_normalization and set_scoring_scheme each change only their own setting, the last write wins, and no distance call changes a setting.", "quantifier": "every sequence of setter and distance calls", "why_tests_cant": "all call sequences", "anchors": ["src/metrics/fzf/fzf_v1.rs:set_*", "src/metrics/fzf/fzf_v2.rs:set_*"]}
{"id": "C50", "title": "FzfV2 computes fzf's scoring table", "statement": "For a fuzzy query of two or more characters FzfV2 returns the largest score of a matching cell of fzf's table (rows: query characters, starting where the leftmost alignment puts them; columns: candidate characters up to the last match of the last query character), defined by the recurrence: match the character on top of the previous row and column, or keep the score on the left minus a gap penalty; and it highlights exactly the columns visited by the traceback from the first such cell, row by row.", "quantifier": "every fuzzy query of two or more characters, every candidate, every configuration, every reachable state of the metric", "why_tests_cant": "the table has query length times candidate length cells; a wrong boundary in one of them changes the result only for particular inputs", "anchors": ["src/metrics/fzf/fzf_v2.rs:matches,score_first_row,score_remaining_rows,matched_ranges"]}
{"id": "C51", "title": "FzfV2's score is that of an alignment", "statement": "FzfV2's fuzzy score is not larger than the documented score (16 per character, bonuses, gap penalties) of some alignment of the query in the candidate.", "quantifier": "every fuzzy query, every candidate, every configuration", "why_tests_cant": "maximum over exponentially many alignments", "anchors": ["src/metrics/fzf/fzf_v2.rs:score_first_row,score_remaining_rows"]}
{"id": "C52", "title": "Exact matches choose by the classes their search sees", "statement": "An exact pattern highlights and scores the occurrence that is best placed with respect to bonuses computed from the class the search believes the preceding character to have: that character's own class if it was skipped, otherwise what the last attempt left behind (the last character it matched, not counting the pattern's last one; for a one-character pattern the class from before the match).", "quantifier": "every pattern text, every candidate, every configuration, every reachable state of the metric", "why_tests_cant": "depends on how all the failed and successful attempts before an occurrence overlap", "anchors": ["src/metrics/fzf/fzf.rs:exact_match (best_bonus, prev_class)"]}
{"id": "C53", "title": "What a further condition adds to the highlights", "statement": "With a condition added to an extended query that matches, the highlighted bytes are those highlighted without it and, if the condition's first matching alternative is fuzzy, all bytes highlighted for that alternative alone; for any other alternative, the bytes of its block up to the end of the first already highlighted range that starts after the block's first byte (all of them if there is none). Negated alternatives highlight nothing.", "quantifier": "every extended query and added condition, every candidate, every configuration", "why_tests_cant": "all overlaps between a block and any number of earlier ranges", "anchors": ["src/matched_ranges.rs:MatchedRanges::insert", "src/metrics/fzf/fzf.rs:Fzf::distance"]}
{"id": "C54", "title": "Candidate normalization is replacing the listed characters", "statement": "For a query string without characters that normalization would replace, a metric with candidate normalization accepts a candidate exactly when the same metric without it accepts the candidate with every listed character replaced by its ASCII letter.", "quantifier": "every query string without listed characters, every candidate, every case sensitivity and scheme, V1 and V2", "why_tests_cant": "all candidates mixing listed and unlisted characters, for every kind of pattern, negated ones included", "anchors": ["src/utils.rs:normalize_candidate_char", "src/normalize.rs:normalize", "src/candidate.rs:find_first"]}
{"id": "C55", "title": "Case-insensitive search with normalization ignores the case of accented letters", "statement": "With CaseSensitivity::Insensitive and candidate normalization, changing the case of any letters of the candidate, accented ones included, does not change whether it matches.", "quantifier": "every query, candidate and set of case flips, V1 and V2", "why_tests_cant": "needs all pairs of case forms of the several hundred accented letters in all positions", "anchors": ["src/normalize.rs:FIRST_BATCH,SECOND_BATCH", "src/utils.rs:case_insensitive_normalized_eq", "src/case_sensitivity.rs"]}
{"id": "C56", "title": "The default distance is that of an empty query, and every match is closer", "statement": "FzfDistance::default() is what a query without patterns returns, and whatever matches a query of non-negated patterns is closer than that.", "quantifier": "every query, candidate, configuration, V1 and V2", "why_tests_cant": "penalties grow with the candidate's length, so that small candidates say nothing about large ones", "anchors": ["src/metrics/fzf/distance.rs:Default", "src/metrics/fzf/fzf.rs:compute_score"]}
{"id": "C57", "title": "The results of every call", "statement": "parse returns exactly the query that its string stands for (pieces, sigils, alternatives). distance and distance_and_ranges return exactly the described outcome: the score is the sum over the conditions of what their first matching alternatives score; FzfV1 scores and highlights the alignment that ends earliest, starts latest and is leftmost; FzfV2 the best cell of its table and that cell's traceback; exact, prefix, suffix and equality patterns a determined occurrence; negated patterns nothing; the appended ranges are the maximal stretches of highlighted characters. The description is unambiguous, so that a program that differs in the result of any call does not satisfy it.", "quantifier": "every query string, every candidate, every configuration, every buffer, every reachable state of the metric, V1 and V2", "why_tests_cant": "equality of two programs on all inputs", "anchors": ["src/metrics/fzf/fzf.rs", "src/metrics/fzf/fzf_v1.rs", "src/metrics/fzf/fzf_v2.rs", "src/metrics/fzf/parser.rs", "src/matched_ranges.rs"]}
{"id": "C58", "title": "FzfV2 is close to the best alignment", "statement": "For a non-empty fuzzy query, the score returned by FzfV2 is at least the documented score (16 per character, bonuses, gap penalties) of every alignment of the query with the candidate, less 1 less than twice the scheme's largest bonus (19 by default) and less 2 more than this bonus (12 by default) for every query character but the first two; for a query of one character it is at least that of every alignment. The shortfall does not depend on the candidate or on how much of it is skipped.", "quantifier": "every non-empty fuzzy query, every candidate, every alignment, every configuration", "why_tests_cant": "a shortfall that grows slowly with the candidate would only show for candidates larger than any tested", "anchors": ["src/metrics/fzf/fzf_v2.rs:score_first_row, score_remaining_rows"]}
{"id": "C59", "title": "No candidate is closer to a fuzzy query than the query itself", "statement": "Among all candidates, the query's own text has the largest score for a fuzzy query: distance(q, q) <= distance(q, s) for every s. More precisely, candidates that start with the query's text, and for FzfV2 those in which it starts a word, have the largest score any candidate can have.", "quantifier": "every fuzzy query, every candidate, every configuration, V1 and V2", "why_tests_cant": "a maximum over all strings", "anchors": ["src/metrics/fzf/scoring.rs:compute_bonus", "src/metrics/fzf/fzf.rs:compute_score", "src/metrics/fzf/fzf_v2.rs:score_remaining_rows"]}
{"id": "C60", "title": "Appending text to a candidate does not make it more distant", "statement": "For a fuzzy query that matches a candidate, appending any text to the candidate does not lower the score; for FzfV1 it changes neither the distance nor the ranges.", "quantifier": "every fuzzy query, every matching candidate, every appended text, every configuration, V1 and V2", "why_tests_cant": "all pairs of candidate and continuation", "anchors": ["src/metrics/fzf/fzf_v1.rs:forward_pass,backward_pass", "src/metrics/fzf/fzf_v2.rs:score_first_row,score_remaining_rows"]}
{"id": "C61", "title": "The order of conditions does not matter", "statement": "Permuting the conditions of an extended query does not change the distance; permuting the alternatives of its conditions does not change whether it matches.", "quantifier": "every extended query, every permutation, every candidate, every configuration, V1 and V2", "why_tests_cant": "all permutations of any number of conditions", "anchors": ["src/metrics/fzf/fzf.rs:Fzf::distance"]}
{"id": "C62", "title": "A query keeps reading what was parsed", "statement": "parse, parse_not_extended and clone never follow a dangling reference or one out of bounds, whatever was done with the parser and other parsers before (including dropping a parser whose clone is still in use). The query that parse or parse_not_extended returns refers to what its string stands for, even if buffers were moved while parsing, and keeps doing so until its own parser is used again, whatever is done with other parsers. This is what the unsafe lifetime extensions of the parser, commented `SAFETY: todo`, rely on.", "quantifier": "every sequence of operations on any number of parsers, every string, every choice of which buffers move when they grow", "why_tests_cant": "a dangling reference usually reads as the old contents in tests; all interleavings of parsers, and all choices of the allocator", "anchors": ["src/metrics/fzf/parser.rs:FzfParser::parse,parse_not_extended,Patterns::next,Words::next", "src/metrics/fzf/query.rs:FzfQuery::new_extended,Pattern::parse"]}
{"id": "C63", "title": "A call reads its query and its candidate as they were given", "statement": "distance and distance_and_ranges hold references to the parser's buffers (the query) and, for candidates that are not ASCII, to the metric's own buffer, to which they write while they run. They nevertheless return what they would with copies of the query and candidate: following the references for every pattern anew, in the state the metric is then in, gives the same results and final states. From parsing a string to calling either method with the query, with anything done to other parsers in between, the call returns the outcome of the query that the string stands for.", "quantifier": "every query, every candidate, every reachable state of the metric and of all parsers, every operation on other parsers between parsing and the call, V1 and V2", "why_tests_cant": "an overwritten candidate shows only for queries of several patterns and candidates that are not ASCII, depending on the sizes of buffers", "anchors": ["src/metrics/fzf/fzf_v1.rs:alloc_chars", "src/metrics/fzf/fzf_v2.rs:alloc_chars", "src/metrics/fzf/fzf.rs:Fzf::distance", "src/metrics/fzf/slab.rs:CandidateSlab::alloc"]}
{"id": "C64", "title": "Only the text around the matches matters", "statement": "Text appended to a candidate changes neither the distance to a fuzzy query nor the ranges, if none of its characters matches the query's last character. Text put before a candidate does not change the distance, and moves the ranges by its length in bytes, if neither it nor the candidate's first character contains a match of the query's first character. Both hold as well for a query that is one exact word, negated or not.", "quantifier": "every non-empty fuzzy query and every exact word, every candidate (matching or not), every such text, every configuration, every buffer, V1 and V2", "why_tests_cant": "all pairs of candidate and surrounding text of any length; the tables of FzfV2 are sized by the part of the candidate that matters", "anchors": ["src/metrics/fzf/fzf_v1.rs:forward_pass,backward_pass", "src/metrics/fzf/fzf_v2.rs:matches,score", "src/metrics/fzf/fzf.rs:compute_score", "src/candidate.rs:find_first_from,find_last"]}
{"id": "C65", "title": "Buffers are bounded by the largest inputs", "statement": "The vectors that a metric keeps between calls never shrink, and after any number of calls none is longer than it was when the metric was new or than the largest call asks for: one element of the candidate's buffer for each byte of the candidate, and for FzfV2 one bonus for each character of the candidate, one index for each character of the longest pattern, and a cell of each matrix for each pair of a character of the pattern and one of the candidate. As long as candidates have at most 128 bytes, patterns at most 128 characters and the product of both is at most 256, no vector ever grows. The parser's vectors are bounded likewise by the longest string parsed.", "quantifier": "every sequence of calls of any length, every query, every candidate, every configuration, V1 and V2, whether calls match or not", "why_tests_cant": "a leak or a needless reallocation shows only after long sequences of calls, and in no result", "anchors": ["src/metrics/fzf/slab.rs:BonusSlab::alloc,CandidateSlab::alloc,MatchedIndicesSlab::alloc,MatrixSlab::alloc", "src/metrics/fzf/parser.rs:FzfParser::parse", "src/metrics/fzf/fzf_v2.rs:FzfV2::fuzzy"]}
{"id": "C66", "title": "What metrics, parsers and distances print", "statement": "Printed with {:?} or {:#?}, a metric shows its name and its current settings: the ones last written, whatever was called in between. Two metrics print alike if and only if they are of the same type and have the same settings, and two distances if and only if they are equal. Nothing is ever printed as an empty string.", "quantifier": "every sequence of calls, every configuration, every score, V1 and V2", "why_tests_cant": "all histories of calls; the scheme is guessed from its numbers when it is printed", "anchors": ["src/metrics/fzf/fzf_v1.rs:Debug", "src/metrics/fzf/fzf_v2.rs:Debug", "src/metrics/fzf/scheme.rs:FzfScheme::from_inner", "src/metrics/fzf/distance.rs", "src/metrics/fzf/parser.rs:Debug"]}
{"id": "C67", "title": "What a query prints", "statement": "A query prints the texts of its patterns, grouped by conditions, so that two queries that print alike search for the same texts.", "quantifier": "every query string, with any characters that need escaping", "why_tests_cant": "uniqueness of reading among all strings", "anchors": ["src/metrics/fzf/query.rs:Debug"]}
{"id": "C68", "title": "What the types private to the crate print", "statement": "Printing a matrix of scores or the ranges of a call does not panic; the matrix is a table all lines of which have the same length, and the ranges are separated by commas. A candidate prints as its text does, whether it is stored as bytes or as characters.", "quantifier": "every matrix that is not empty, every list of ranges, every candidate", "why_tests_cant": "all contents; this code runs only while debugging", "anchors": ["src/metrics/fzf/slab.rs:Debug,Rows,Cols,MatrixItem::printed_width", "src/candidate.rs:Debug", "src/matched_ranges.rs:Debug"]}
{"id": "C69", "title": "FzfV1 takes time linear in the candidate", "statement": "FzfV1's distance runs in O(len(candidate)), for matches and non-matches, whatever the query's length; reporting the ranges as well adds at most the cost of keeping them sorted.", "quantifier": "every query, every candidate, every configuration, every history of the metric; counted in bytes, characters and cells that the code touches", "why_tests_cant": "a bound on the time of all inputs; benchmarks show one input at a time", "anchors": ["src/metrics/fzf/fzf_v1.rs:FzfV1", "src/metrics/fzf/fzf.rs", "src/matched_ranges.rs:MatchedRanges::insert"]}
{"id": "C70", "title": "FzfV2 takes time proportional to query times candidate", "statement": "FzfV2's distance, and distance_and_ranges, run in O(len(query) * len(candidate)), where the length of the query is the total length of its patterns, which is at most that of the string parsed.", "quantifier": "every query, every candidate, every configuration, every history of the metric, whatever the vector of ranges holds; counted in bytes, characters and cells that the code touches", "why_tests_cant": "a bound on the time of all inputs", "anchors": ["src/metrics/fzf/fzf_v2.rs:FzfV2", "src/metrics/fzf/fzf.rs", "src/metrics/fzf/slab.rs", "src/matched_ranges.rs:MatchedRanges::insert"]}
{"id": "C71", "title": "FzfV2 filters out non-matches in linear time", "statement": "When the candidate does not match, FzfV2's distance runs in O(len(candidate)), whatever the query's length.", "quantifier": "every query, every candidate that does not match, every configuration, every history of the metric", "why_tests_cant": "a bound on the time of all inputs", "anchors": ["src/metrics/fzf/fzf_v2.rs:FzfV2::fuzzy", "src/metrics/fzf/fzf.rs:exact_match"]}
{"id": "C72", "title": "Parsing takes linear time", "statement": "FzfParser::parse runs in time linear in the length of the string in bytes, and parse_not_extended in its characters, whatever was parsed before.", "quantifier": "every string, every state of the parser; counted in bytes and characters looked at or written, and elements of vectors that grow", "why_tests_cant": "a bound on the time of all inputs: escaped spaces, alternatives and words without text make the loops go round without result", "anchors": ["src/metrics/fzf/parser.rs:FzfParser::parse,parse_not_extended,Patterns::next,Words::next", "src/metrics/fzf/query.rs:Pattern::parse,Pattern::raw", "src/utils.rs:strip_leading_spaces"]}
{"id": "C73", "title": "The fuzz target finds nothing", "statement": "fuzz/fuzz_targets/fzf.rs, given any query string and candidate, runs to its end without panicking: parsing, then for each of the 18 settings distance_and_ranges of the same FzfV1 and of the same FzfV2 with the same growing vector of ranges, slicing the candidate by every range in the vector after every call.", "quantifier": "every query string, every candidate", "why_tests_cant": "fuzzing runs on finitely many inputs; this is what it looks for, on all of them", "anchors": ["fuzz/fuzz_targets/fzf.rs", "src/metrics/fzf/parser.rs:FzfParser::parse", "src/metrics/fzf/fzf.rs:Fzf::distance"]}
{"id": "C74", "title": "Searching a list", "statement": "Filtering a list of candidates by one metric's distance and sorting what is left by it, as examples/cities.rs and the documentation do, does not panic and gives exactly the candidates that match, each as often as it is in the list and with the distance that a metric of the same settings returns that is used for nothing else; larger scores come first, and equal ones in the order of the list. This determines the results, so they do not depend on what the metric was used for before. Permuting the list permutes the results, with the same scores at every place.", "quantifier": "every list of any length, every query (extended or not), every configuration, every history of the metric, V1 and V2", "why_tests_cant": "all lists; state left by one candidate that affects a later one shows only in long runs", "anchors": ["examples/cities.rs:main", "src/metrics/fzf/distance.rs:Ord", "src/metrics/fzf/fzf.rs:Fzf::distance", "src/metric.rs"]}
{"id": "C75", "title": "Typing narrows the results", "statement": "When characters are appended to a query string, every candidate that matches the new query matches the old one, so that searching among the previous results gives what searching the whole list does.", "quantifier": "every query string, every appended string, every candidate, every list, every configuration, V1 and V2", "why_tests_cant": "all pairs of a query string and an extension; parsing, case sensitivity and matching have to agree", "anchors": ["src/metrics/fzf/parser.rs:FzfParser::parse", "src/metrics/fzf/query.rs:Pattern::parse", "src/metrics/fzf/fzf.rs:Fzf::distance", "examples/cities.rs:main"]}
{"id": "C76", "title": "What a query borrows is not written to", "statement": "FzfParser::parse and parse_not_extended write to no element, and borrow exclusively no buffer, of which a slice is in use: neither one of a query of another parser, nor one of the words and conditions that the call itself has handed out with a longer lifetime (transmute). With every write checked for this the calls return as they do unchecked. All the slices that can be read through the query are borrowed from then on, whatever is done with other parsers.", "quantifier": "every program that makes, clones, drops and uses parsers; every string; every choice of which buffers are moved when they grow", "why_tests_cant": "undefined behaviour by aliasing has no effect that a test can see, other than under an interpreter that checks for it on the inputs tried", "anchors": ["src/metrics/fzf/parser.rs:FzfParser::parse,parse_not_extended,Patterns::alloc,next,Words::alloc,next"]}
{"id": "C77", "title": "Cloning copies no dangling reference", "statement": "The references in the buffers of a FzfParser, which FzfParser::clone copies, refer to memory that is allocated.", "quantifier": "every program that makes, clones, drops and uses parsers; every string; every choice of which buffers are moved when they grow", "why_tests_cant": "a dangling reference that is copied but not followed has no effect that a test can see", "anchors": ["src/metrics/fzf/parser.rs:FzfParser,FzfParser::clone,FzfParser::parse"]}
{"id": "C78", "title": "Overflow never goes unnoticed", "statement": "Compiled for any width of usize, with or without overflow checks and debug assertions, and with vectors that can only get so long, parsing and both distance calls either return exactly what they return with unbounded numbers and vectors, and leave the same state, or panic. parse_not_extended is the same in every build.", "quantifier": "every build whose vectors take at most isize::MAX bytes, every string and candidate of at most isize::MAX bytes, every history of parsers and metrics in that build", "why_tests_cant": "overflows need inputs of gigabytes; in a release build they wrap around silently", "anchors": ["src/candidate.rs", "src/matched_ranges.rs", "src/metrics/fzf/slab.rs", "src/metrics/fzf/parser.rs", "src/metrics/fzf/fzf.rs", "src/metrics/fzf/fzf_v1.rs", "src/metrics/fzf/fzf_v2.rs"]}
{"id": "C79", "title": "Strings in memory cause no panic for want of room", "statement": "Parsing a string that is in memory, and calling a metric with it and a candidate that is in memory, needs no vector that is larger than a Vec can be.", "quantifier": "every build whose vectors take at most isize::MAX bytes, every string and candidate of at most isize::MAX bytes, every history of parsers and metrics in that build", "why_tests_cant": "needs inputs of gigabytes, or a 32-bit system", "anchors": ["src/metrics/fzf/slab.rs:MatrixSlab::alloc,CandidateSlab::alloc", "src/metrics/fzf/parser.rs:FzfParser::parse", "src/metrics/fzf/fzf_v2.rs:FzfV2::fuzzy"]}
{"id": "C80", "title": "Which queries can be written", "statement": "A list of conditions, each a non-empty list of alternatives, is what some query string parses to exactly when every pattern has a word, and no word but the last ends with a backslash. Fuzzy patterns that are not negated, and exact ones that are, have no word if their text starts with ' or ^ or ends with $ (unless it is $); nor has a prefix pattern whose text ends with $, a suffix pattern whose text starts with ' or ^, a fuzzy or suffix pattern that is not negated and starts with !, or the fuzzy pattern |. All others have one, so that of all kinds only exact patterns, negated fuzzy ones, and equality patterns exist for every text. A string is given for every such list.", "quantifier": "every list of conditions", "why_tests_cant": "it is about all strings that one could type, and that there is none", "anchors": ["src/metrics/fzf/parser.rs:FzfParser::parse", "src/metrics/fzf/query.rs:Pattern::parse", "src/metrics/fzf/parser.rs:Words::next,Patterns::next"]}
{"id": "C81", "title": "A caught panic does no harm", "statement": "After a call of parse, parse_not_extended, distance or distance_and_ranges that panicked and was caught, the parser or metric can be used as if the call had not been made: parse returns the same query as on a new parser, parse_not_extended still takes every string it took before, and both distance calls return what a new metric with the same settings returns. In a build with bounded vectors, parse and distance also panic exactly when they do on a new parser or metric. No dangling reference is followed, and the queries of other parsers read as before.", "quantifier": "every history of parsers and metrics with any number of panicking calls, every string, query and candidate, and whatever the calls have left in the buffers", "why_tests_cant": "a test would have to make calls panic at every point at which they can, and to try everything after each of them", "anchors": ["src/metrics/fzf/parser.rs:FzfParser::parse,parse_not_extended", "src/metrics/fzf/slab.rs", "src/metrics/fzf/fzf_v1.rs:FzfV1", "src/metrics/fzf/fzf_v2.rs:FzfV2", "src/metrics/fzf/fzf.rs:Fzf::distance"]}
{"id": "C82", "title": "Only the lengths of a metric's buffers affect its time", "statement": "The steps of distance and distance_and_ranges depend on the calls made before with the same metric only through the lengths of its buffers, not through what they hold, and not on the vector of ranges passed in. With longer buffers they are no more; a metric that has been used is never slower than a new one with the same settings; and a repeated call makes no buffer longer and takes no more steps than the first.", "quantifier": "every two histories of calls of a metric (including calls that panicked), every query, candidate and vector of ranges, V1 and V2", "why_tests_cant": "measured times vary; what is left in the buffers depends on all calls before", "anchors": ["src/metrics/fzf/slab.rs", "src/metrics/fzf/fzf_v1.rs:FzfV1", "src/metrics/fzf/fzf_v2.rs:FzfV2", "src/metrics/fzf/fzf.rs:Fzf::distance"]}
{"id": "C83", "title": "What the benchmarks measure", "statement": "The benchmarks of benches/common.rs never panic, however many iterations are made. All iterations but the first take the same number of steps, and the first one at least as many, so that the time of a warm metric is measured. The vector of ranges is not cleared: every iteration appends the same ranges again. The ids of the six combinations are different, for every suffix; the queries are single fuzzy patterns that match their candidates with every case sensitivity.", "quantifier": "every number of iterations, every query string, every list of candidates, every metric that API calls have made", "why_tests_cant": "the number of iterations is up to the machine, and unbounded", "anchors": ["benches/common.rs:bench,for_all_cases_and_ranges,param", "benches/fzf_v1.rs", "benches/fzf_v2.rs"]}
{"id": "C84", "title": "The benchmarks of exact, prefix, suffix and equality patterns", "statement": "The queries of benches/fzf_common.rs have no fuzzy patterns, so that it does not matter whether V1 or V2 is used: the distances and the steps are the same.", "quantifier": "the four benchmarks; the part that is proved: every text without special characters in the place of MEDIUM_TEXT, every metric that API calls have made", "why_tests_cant": "the benchmarks have no assertions; that two algorithms take the same steps holds for all candidates or not at all", "anchors": ["benches/fzf_common.rs:exact,prefix,suffix,equal,bench", "src/metrics/fzf/parser.rs:FzfParser::parse"]}
{"id": "C85", "title": "Which calls report ranges", "statement": "distance_and_ranges adds something to the vector exactly if some condition of the query, before which all conditions are met, has a first matching alternative that is not negated; with a query that is not extended, exactly if it is not empty and matches. So a query of negated patterns only never reports a range, and a match with any other query reports one unless every condition is met by a negated alternative.", "quantifier": "every metric that API calls have made, every query and candidate, V1 and V2", "why_tests_cant": "V2 can highlight only part of a match, so that there could be a match in which it highlights nothing", "anchors": ["src/metrics/fzf/fzf.rs:Fzf::distance,Fzf::score", "src/metrics/fzf/fzf_v2.rs:FzfV2::fuzzy,matched_ranges", "src/metrics/fzf/fzf_v1.rs:FzfV1::fuzzy", "src/matched_ranges.rs"]}
{"id": "C86", "title": "Asking for ranges never makes a call faster", "statement": "distance_and_ranges takes at least as many steps as distance with the same metric, query and candidate; it takes exactly as many if and only if it reports no range. So ranges cost nothing with negated patterns, and when a query that is not extended does not match.", "quantifier": "every metric that API calls have made, every query, candidate and vector of ranges, V1 and V2", "why_tests_cant": "measured times vary by more than what is compared", "anchors": ["src/metrics/fzf/fzf.rs:Fzf::distance,Fzf::score,compute_score", "src/metrics/fzf/fzf_v2.rs:matched_ranges", "src/metrics/fzf/fzf_v1.rs:FzfV1::fuzzy", "src/matched_ranges.rs:MatchedRanges::insert"]}
{"id": "C87", "title": "Repeating an alternative", "statement": "A word w and the query `w | w` give the same distance and ranges. More generally, an alternative of a condition that matches only candidates which an earlier alternative of it matches can be left out.", "quantifier": "every metric that API calls have made, every query and candidate, V1 and V2; for the first sentence every word", "why_tests_cant": "the parser treats a query of one word differently from all others", "anchors": ["src/metrics/fzf/fzf.rs:Fzf::distance", "src/metrics/fzf/parser.rs:FzfParser::parse"]}
{"id": "C88", "title": "Repeating a condition", "statement": "A condition of the query written once more changes neither which candidates match nor the ranges, and adds to the distance what the condition alone is worth.", "quantifier": "every metric that API calls have made, every extended query and candidate, V1 and V2", "why_tests_cant": "how an inserted range is merged depends on all ranges before it", "anchors": ["src/metrics/fzf/fzf.rs:Fzf::distance", "src/matched_ranges.rs:MatchedRanges::insert"]}
{"id": "C89", "title": "The scheme History adds no points", "statement": "FzfScheme::History \"doesn't assign any additional bonus points\": with the same other settings, query and candidate, its score is at most that of FzfScheme::Default, both accept the same candidates, and the ranges are the same.", "quantifier": "all metrics that API calls have made and that differ in the scheme, every query and candidate, V1 and V2", "why_tests_cant": "V2 compares runs with each other, so that a larger bonus in one place can make it choose a worse match in another", "anchors": ["src/metrics/fzf/scheme.rs:FzfScheme,DEFAULT,HISTORY", "src/metrics/fzf/scoring.rs:bonus", "src/metrics/fzf/fzf_v2.rs:score", "src/metrics/fzf/fzf_v1.rs:FzfV1::fuzzy"]}
{"id": "C90", "title": "What a fuzzy match depends on", "statement": "A fuzzy query gives two candidates the same distance if its characters match at the same positions of both, with the same positional bonuses there. No other character of a candidate matters, and not how many follow. If the characters at each position also lie at the same bytes, the ranges are the same.", "quantifier": "every metric that API calls have made, every fuzzy query, every two candidates, V1 and V2", "why_tests_cant": "V2 fills a table with a cell for every pair of a query character and a candidate character, also where they do not match", "anchors": ["src/metrics/fzf/fzf_v1.rs:forward_pass,backward_pass", "src/metrics/fzf/fzf_v2.rs:matches,score,matched_ranges"]}
{"id": "C91", "title": "Slashes and spaces", "statement": "Of two candidates of which one has spaces where the other has slashes, for a fuzzy query without slashes and spaces: both match or neither does; FzfScheme::Default scores the one with the spaces no lower, FzfScheme::Path the one with the slashes no lower, and with FzfScheme::History both have the same distance and ranges (the example in the documentation of set_scoring_scheme).", "quantifier": "every metric that API calls have made, every fuzzy query without / and space, every candidate, every choice of slashes that are replaced, V1 and V2", "why_tests_cant": "the example in the documentation has one candidate, in which every character stands alone", "anchors": ["src/metrics/fzf/fzf_v1.rs:FzfV1::set_scoring_scheme", "src/metrics/fzf/fzf_v2.rs:FzfV2::set_scoring_scheme", "src/metrics/fzf/scheme.rs", "src/metrics/fzf/scoring.rs:char_class,compute_bonus"]}
{"id": "C92", "title": "Candidates that start with the word", "statement": "If `^w` matches a candidate, `'w` returns the same distance for it, and the same ranges unless w consists of spaces; so does the fuzzy w with FzfV1, and with FzfV2 it scores at least as much unless w starts with a space. If `^w$` matches, `^w` and `w$` return the same distance and ranges.", "quantifier": "every metric that API calls have made, every non-empty word and every candidate, V1 and V2; for `'w` every classification of the characters in which those the normalization replaces are no numbers", "why_tests_cant": "the five searches are separate code, and the exact one goes on after an occurrence unless its bonus is large enough", "anchors": ["src/metrics/fzf/fzf.rs:exact_match,prefix_match,suffix_match,equal_match,ignored_candidate_leading_spaces", "src/metrics/fzf/fzf_v1.rs:forward_pass,backward_pass", "src/metrics/fzf/fzf_v2.rs:score"]}
{"id": "C93", "title": "Which letters are used does not matter", "statement": "Exchanging letters for letters (capitals accordingly) and digits for digits, in the query string and in the candidate alike, changes neither the distance nor the ranges.", "quantifier": "every such exchange that keeps different characters different, every metric that API calls have made, every query, V1 and V2; every candidate if candidates are not normalized, otherwise every candidate without characters that the normalization replaces; every classification of characters that knows the capitals of ASCII", "why_tests_cant": "tests use particular letters; the parser gives some characters a meaning, and comparisons of bytes and of characters are separate code", "anchors": ["src/metrics/fzf/parser.rs:FzfParser::parse", "src/metrics/fzf/fzf.rs:Fzf::distance,exact_match", "src/metrics/fzf/fzf_v1.rs:FzfV1::fuzzy", "src/metrics/fzf/fzf_v2.rs:FzfV2::fuzzy", "src/candidate.rs"]}
{"id": "C94", "title": "What the platform and the version of Unicode can change", "statement": "Two builds that agree on which characters of the query are upper case and on the classes of the candidate's characters parse the same query and return the same distance and ranges. For a query and a candidate in ASCII this holds for all builds, except that with FzfScheme::Path a backslash is a separator only on Windows.", "quantifier": "all platforms and all classifications of characters, every metric that API calls have made, every query and candidate, V1 and V2; for the second sentence all classifications that know the capitals of ASCII", "why_tests_cant": "tests run on one platform with one version of Unicode", "anchors": ["src/metrics/fzf/scheme.rs:PATH", "src/metrics/fzf/scoring.rs:char_class", "src/metrics/fzf/parser.rs:FzfParser::parse", "src/metrics/fzf/query.rs:Pattern::parse"]}
{"id": "C95", "title": "When case sensitivity and normalization matter", "statement": "Two metrics with the same scoring scheme return the same distance and ranges unless their settings differ on some pair of a query character and a candidate character. So the case sensitivity does not matter unless a letter of the query stands in the candidate in the other case, and the normalization does not matter for candidates without characters that it replaces. A prefix, suffix or equality pattern that matches with both settings has the same distance and ranges with both.", "quantifier": "all metrics that API calls have made and that have the same scheme, every query and candidate, V1 and V2", "why_tests_cant": "the settings choose between several comparison functions, and V2 and the byte search have variants of their own for each", "anchors": ["src/metrics/fzf/fzf.rs:Fzf::distance,exact_match,prefix_match,suffix_match,equal_match", "src/metrics/fzf/fzf_v1.rs:FzfV1::set_case_sensitivity,FzfV1::set_candidate_normalization", "src/metrics/fzf/fzf_v2.rs:FzfV2::set_case_sensitivity,FzfV2::set_candidate_normalization", "src/candidate.rs"]}
{"id": "C96", "title": "The binary search among the ranges", "statement": "Whenever a range is inserted, the ranges of this call have strictly increasing starts. So binary_search_by is only called where its documentation determines its result, and the loop of the standard library finds it, with at most one comparison more than the number of halvings down to one range.", "quantifier": "every metric that API calls have made, every query that a parser returns, every candidate and vector of ranges, V1 and V2", "why_tests_cant": "on a slice that is not sorted the search usually finds something, and what it finds may depend on the version of the standard library", "anchors": ["src/matched_ranges.rs:MatchedRanges::binary_search_by,MatchedRanges::insert"]}
{"id": "C97", "title": "The number of ranges", "statement": "distance_and_ranges appends at most one range for each character of a fuzzy word, one for each other word and none for a negated one, counting of the alternatives of a condition the one with the most; and at most one for every two bytes of the candidate, rounded up. What it highlights are at most as many characters as the words have that are not negated, counted in the same way.", "quantifier": "every metric that API calls have made, every query, candidate and vector of ranges, V1 and V2", "why_tests_cant": "ranges are merged as they are inserted, and FzfV2 reads the characters to highlight off a matrix whose cells need not belong to one match", "anchors": ["src/metrics/fzf/fzf.rs:Fzf::distance,compute_score", "src/metrics/fzf/fzf_v2.rs:matched_ranges", "src/matched_ranges.rs:MatchedRanges::insert"]}
{"id": "C98", "title": "Spaces around a candidate", "statement": "When no pattern of the query begins or ends with a space, which holds for every query without an escaped space, spaces behind a candidate change neither the distance nor the ranges. Spaces before it do not change whether it matches; except with FzfScheme::Path they do not change the distance either, and shift the ranges by as many bytes.", "quantifier": "every metric that API calls have made, every query with such patterns of all five kinds, negated or not, every candidate and any number of spaces, V1 and V2", "why_tests_cant": "the five searches are separate code and treat the beginning of a candidate each in their own way", "anchors": ["src/metrics/fzf/fzf.rs:exact_match,prefix_match,suffix_match,equal_match,compute_score", "src/metrics/fzf/fzf_v1.rs:FzfV1::fuzzy", "src/metrics/fzf/fzf_v2.rs:FzfV2::fuzzy", "src/metrics/fzf/candidate.rs", "src/metrics/fzf/scheme.rs"]}
