#!/usr/bin/env python3
"""Regenerates /verif/properties.jsonl (kept as a script so that the JSON stays valid)."""
import json
P=[]
def p(title, statement, quantifier, why, anchors):
    P.append(dict(id="C%02d"%(len(P)+1), title=title, statement=statement, quantifier=quantifier, why_tests_cant=why, anchors=anchors))

F="src/metrics/fzf/"
p("Fuzzy match decision (FzfV1)",
  "For a non-empty query parsed with parse_not_extended, FzfV1::distance returns Some exactly when the query's characters occur in the candidate in order (as a subsequence, not necessarily contiguous), two characters being compared by the metric's configured case sensitivity and normalization.",
  "every metric instance reachable through the API, every non-empty query, every candidate string",
  "queries, candidates and their alignments are unbounded; a test fixes finitely many pairs",
  [F+"fzf_v1.rs:FzfV1::fuzzy, forward_pass", F+"fzf.rs:Fzf::distance", "src/candidate.rs:find_first_from"])
p("Fuzzy match decision (FzfV2)",
  "The same as C01 for FzfV2: Some exactly when the query is a subsequence of the candidate.",
  "every metric instance reachable through the API, every non-empty query, every candidate string",
  "the V2 code path (pre-filter, matrix, single-character shortcut) must agree with the definition for every pair of strings",
  [F+"fzf_v2.rs:FzfV2::fuzzy, matches, fuzzy_single_char"])
p("V1 and V2 accept the same candidates",
  "With the same settings, FzfV1::distance and FzfV2::distance return Some for exactly the same (query, candidate) pairs, for extended and non-extended queries.",
  "every query produced by the parser, every candidate, every equal configuration of the two metrics",
  "two different algorithms must coincide on an unbounded domain",
  [F+"fzf_v1.rs:fuzzy", F+"fzf_v2.rs:fuzzy", F+"fzf.rs:score,distance"])
p("Exact patterns are substring search",
  "The query 'foo (quote prefix) matches a candidate exactly when foo occurs in it as a contiguous block of characters (under the configured character comparison).",
  "every pattern text, every candidate, every configuration, V1 and V2",
  "the hand-written restart loop of exact_match must not miss or invent an occurrence for any overlap structure of pattern and candidate",
  [F+"fzf.rs:exact_match"])
p("Prefix patterns",
  "The query ^foo matches exactly when, after ignoring the surplus of leading spaces the candidate has over the pattern, the candidate starts with foo; it fails if the candidate has fewer leading spaces than the pattern.",
  "every pattern text, every candidate, every configuration, V1 and V2",
  "arbitrary numbers of leading spaces and arbitrary text",
  [F+"fzf.rs:prefix_match, ignored_candidate_leading_spaces"])
p("Suffix patterns",
  "The query foo$ matches exactly when, after ignoring the surplus of trailing spaces the candidate has over the pattern, the candidate ends with foo.",
  "every pattern text, every candidate, every configuration, V1 and V2",
  "arbitrary numbers of trailing spaces and arbitrary text",
  [F+"fzf.rs:suffix_match, ignored_candidate_trailing_spaces"])
p("Equality patterns",
  "The query ^foo$ matches exactly when the candidate equals foo after ignoring the candidate's surplus of leading and trailing spaces over the pattern's.",
  "every pattern text, every candidate, every configuration, V1 and V2",
  "arbitrary text and padding, including all-space candidates where the two trimmed ends cross",
  [F+"fzf.rs:equal_match"])
p("Negated patterns are complements",
  "A query made of one pattern prefixed with ! matches exactly the candidates that the same pattern without ! would not match, with score 0 and no highlighted range.",
  "every pattern kind, every pattern text, every candidate, every configuration",
  "complementation is a statement about all candidates",
  [F+"fzf.rs:Fzf::score,distance", F+"query.rs:FzfQuery::new_extended, Pattern::parse"])
p("Extended queries are ANDs of ORs",
  "An extended query with conditions D1..Dn, each an OR of patterns, matches a candidate exactly when every condition has at least one pattern that matches it.",
  "every list of conditions, every candidate, every configuration, V1 and V2",
  "arbitrary numbers of conditions and alternatives",
  [F+"fzf.rs:Fzf::distance", F+"query.rs:Condition"])
p("Extended score is additive over first matching alternatives",
  "When an extended query matches, its score is the sum over the conditions of the score of the first alternative (in query order) that matches; alternatives that do not match contribute neither score nor ranges.",
  "every list of conditions, every candidate, every configuration",
  "arbitrary numbers of conditions and alternatives",
  [F+"fzf.rs:Fzf::distance (find_map, total_score)"])
p("Empty queries match everything",
  "A query whose parse yields no pattern (empty string, only spaces, only operators such as | or !) matches every candidate with score 0 and appends no range.",
  "every query without patterns, every candidate, every configuration",
  "all candidates and all operator-only query strings",
  [F+"query.rs:FzfQuery::is_empty", F+"fzf.rs:Fzf::distance", F+"parser.rs:parse"])
p("distance and distance_and_ranges agree",
  "distance and distance_and_ranges return the same Option<Distance> for the same arguments.",
  "every query, candidate, configuration and ranges buffer, V1 and V2",
  "const-generic specialisation touches every branch of every match kind",
  ["src/metric.rs:Metric::distance_and_ranges", F+"fzf.rs", F+"fzf_v1.rs", F+"fzf_v2.rs"])
p("The ranges buffer is append-only",
  "distance_and_ranges never modifies the ranges already present in the buffer: the old content is a prefix of the new content.",
  "every buffer content, query, candidate, configuration, whether or not the query matches",
  "insertion, merging and removal shift elements of a vector whose prefix must be preserved for all contents",
  ["src/matched_ranges.rs:MatchedRanges", "src/metric.rs:Metric::distance_and_ranges"])
p("No match leaves the ranges buffer untouched",
  "If distance_and_ranges returns None the buffer is left exactly as it was.",
  "every buffer, query, candidate and configuration",
  "must hold on every failing execution path",
  ["src/metric.rs:61", F+"fzf.rs:Fzf::distance"])
p("Appended ranges never overlap",
  "The ranges appended by one distance_and_ranges call are non-empty, sorted by start and pairwise disjoint (in fact separated by at least one byte).",
  "every query, candidate, configuration and buffer, V1 and V2",
  "the order and shape of insertions is unbounded",
  ["src/metric.rs:56", "src/matched_ranges.rs:insert"])
p("Appended ranges are valid slices of the candidate",
  "Every appended range start..end satisfies start < end <= candidate.len() and both ends are UTF-8 character boundaries, so slicing the candidate with it never panics.",
  "every query, candidate (ASCII or not), configuration, V1 and V2",
  "byte offsets are computed from character offsets of arbitrary multi-byte text; the fuzz target only samples this",
  ["src/candidate.rs:to_byte_offset,to_byte_range", "fuzz/fuzz_targets/fzf.rs", F+"fzf.rs:compute_score", F+"fzf_v2.rs:matched_ranges"])
p("FzfV1 fuzzy ranges spell the query",
  "For a fuzzy query that matches, the characters covered by the ranges FzfV1 appends are exactly as many as the query's characters and match them one by one in order.",
  "every fuzzy query, every candidate, every configuration",
  "relates two greedy passes and a third greedy scan for all strings",
  [F+"fzf_v1.rs:fuzzy,forward_pass,backward_pass", F+"fzf.rs:compute_score"])
p("FzfV2 fuzzy ranges spell the query",
  "For a fuzzy query that matches, the characters covered by the ranges FzfV2 appends are exactly as many as the query's characters and match them one by one in order.",
  "every fuzzy query, every candidate, every configuration",
  "the traceback walks a score matrix of unbounded size",
  [F+"fzf_v2.rs:score,score_remaining_rows,matched_ranges"])
p("Exact, prefix, suffix and equality matches highlight one occurrence",
  "When a single non-negated exact, prefix, suffix or equality pattern matches, exactly one range is appended and the characters it covers match the pattern's text one by one.",
  "every pattern text, every candidate, every configuration, V1 and V2",
  "char-to-byte conversion and choice of occurrence for arbitrary text",
  [F+"fzf.rs:exact_match,prefix_match,suffix_match,equal_match", "src/candidate.rs:to_byte_range"])
p("Highlights of a multi-condition query are the union of the conditions' highlights",
  "For an extended query that matches, the set of bytes covered by the appended ranges is exactly the union of the bytes highlighted for the matching alternative of each condition.",
  "every query with several conditions, every candidate, every configuration",
  "interleavings of overlapping, touching and nested ranges are unbounded",
  ["src/matched_ranges.rs:insert", F+"fzf.rs:Fzf::distance"])
p("FzfV1 match window",
  "The part of the candidate FzfV1 matches ends at the earliest position where the query has been seen as a subsequence, and starts at the latest position from which that end still contains the query; of the alignments starting there, the leftmost is the one scored and highlighted.",
  "every fuzzy query, every matching candidate, every configuration",
  "minimality/maximality over all alignments",
  [F+"fzf_v1.rs:forward_pass,backward_pass"])
p("FzfV1 score is the score of the highlighted alignment",
  "FzfV1's score for a fuzzy query equals the documented scoring (match points, boundary/camel/consecutive bonuses, doubled first bonus, affine gap penalties) evaluated on the highlighted character positions.",
  "every fuzzy query, every matching candidate, every configuration",
  "the running score is updated along an unbounded scan",
  [F+"fzf.rs:compute_score", F+"scoring.rs", F+"mod.rs:bonus,penalty"])
p("FzfV2 single-character queries pick the best occurrence",
  "For a one-character fuzzy query FzfV2's score is the maximum over all occurrences of the character of 16 + 2*bonus, and the highlighted range is the leftmost occurrence attaining it.",
  "every character, every candidate, every configuration",
  "maximum over an unbounded set of occurrences",
  [F+"fzf_v2.rs:fuzzy_single_char"])
p("FzfV2 is never worse than FzfV1",
  "FzfV2 considers all alignments: for every fuzzy query its distance is less than or equal to FzfV1's (its score is at least FzfV1's).",
  "every fuzzy query, every matching candidate, every configuration",
  "optimality over exponentially many alignments",
  [F+"fzf_v2.rs:score,score_first_row,score_remaining_rows", F+"fzf_v1.rs"])
p("Parsing never panics",
  "FzfParser::parse returns for every query string: it terminates and never indexes its reusable buffers out of bounds.",
  "every query string, every parser state left by earlier calls",
  "buffer sizes are estimated from the byte length of the query (len, len/2+1); the estimate must dominate for all strings",
  [F+"parser.rs:FzfParser::parse, Patterns, Words"])
p("parse_not_extended never panics",
  "FzfParser::parse_not_extended returns for every query string.",
  "every query string, every parser state left by earlier calls",
  "query length is unbounded; the shipped tests only use short queries",
  [F+"parser.rs:FzfParser::parse_not_extended"])
p("distance never panics",
  "distance and distance_and_ranges return for every query produced by the parser and every candidate: every index, slice, unwrap and expect in the matching code is in range, and every loop terminates.",
  "every metric instance reachable through the API, every parsed query, every candidate, V1 and V2",
  "dozens of unchecked-looking indexings whose safety depends on invariants between passes",
  [F+"fzf.rs", F+"fzf_v1.rs", F+"fzf_v2.rs", F+"slab.rs", "src/candidate.rs"])
p("Results do not depend on the metric's history",
  "The result of a distance or distance_and_ranges call depends only on the current settings, the query, the candidate and (for ranges) the buffer: reusing one metric instance for many calls gives the results a fresh instance with the same settings gives.",
  "every history of API calls on a metric instance, V1 and V2",
  "scratch slabs keep stale data of earlier, larger calls; every history is a different stale state",
  [F+"slab.rs", F+"fzf_v1.rs", F+"fzf_v2.rs", F+"candidate.rs:bonus_at"])
p("Parse results do not depend on the parser's history",
  "The FzfQuery returned by parse depends only on the query string, not on what the same parser parsed before; so does that of parse_not_extended whenever it returns.",
  "every history of parse calls on one parser",
  "reused char, pattern and condition buffers hold stale data of every earlier query",
  [F+"parser.rs:FzfParser"])
p("Word splitting and escaped spaces",
  "parse splits the query at runs of unescaped spaces; a space preceded by a backslash is a literal space of the word (the backslash is dropped); words are never empty and no other character is changed or lost.",
  "every query string",
  "arbitrary runs of spaces and backslashes in arbitrary text",
  [F+"parser.rs:Words", "src/utils.rs:strip_leading_spaces"])
p("OR binds tighter than AND",
  "In the parsed query consecutive patterns belong to the same condition exactly when at least one | word stands between them; pattern order is preserved; no condition and no pattern is empty.",
  "every sequence of words",
  "arbitrary interleavings of patterns, pipes and empty patterns",
  [F+"parser.rs:Patterns"])
p("Pattern sigils",
  "Each word is classified exactly as documented: leading ! negates, leading ' selects exact matching (fuzzy after !), leading ^ prefix, trailing $ suffix, both equality; the sigils are removed from the text, nothing else is, and words consisting only of sigils are dropped.",
  "every word",
  "all combinations of sigils with arbitrary text",
  [F+"query.rs:Pattern::parse"])
p("Any text can be searched for by escaping it",
  "For every non-empty text t there is a query string, namely ' followed by t with its spaces backslash-escaped (and a final $ doubled), that parses to the single exact pattern t.",
  "every non-empty text",
  "round-trip over all strings",
  [F+"parser.rs:Words", F+"query.rs:Pattern::parse"])
p("Case-insensitive search ignores ASCII case",
  "With CaseSensitivity::Insensitive, changing the ASCII case of any letters of the candidate or of the query text does not change whether the candidate matches.",
  "every query, candidate, any set of case flips, V1 and V2",
  "all case variants of all strings, across the ASCII byte-search and Unicode paths",
  ["src/utils.rs:case_insensitive_eq, ascii_letter_flip_case", "src/candidate.rs:find_first_ascii", "src/case_sensitivity.rs"])
p("Sensitive matches are insensitive matches",
  "For a fuzzy, exact, prefix, suffix or equality pattern, a candidate that matches with CaseSensitivity::Sensitive also matches with Smart and with Insensitive.",
  "every non-negated pattern, every candidate, V1 and V2",
  "inclusion over all strings",
  ["src/utils.rs:char_eq", F+"fzf_v1.rs:char_eq", F+"fzf_v2.rs:char_eq"])
p("Smart case",
  "With CaseSensitivity::Smart a pattern is compared case-sensitively exactly when its text contains an uppercase character, otherwise case-insensitively; the result equals that of the metric explicitly set to Sensitive or Insensitive.",
  "every query, candidate, V1 and V2",
  "all query texts",
  [F+"fzf_v1.rs:char_eq,fuzzy", F+"fzf_v2.rs:char_eq,fuzzy", F+"query.rs:Pattern"])
p("Normalization only adds matches and never affects ASCII candidates",
  "Enabling candidate normalization never turns a match of a non-negated pattern into a non-match, and for ASCII-only candidates it changes neither distance nor ranges.",
  "every query, candidate, configuration, V1 and V2",
  "inclusion/equality over all strings",
  ["src/utils.rs:normalize_candidate_char", "src/normalize.rs:normalize,is_normalized"])
p("Normalization table",
  "normalize maps each listed Latin letter to the listed ASCII letter, leaves every other character unchanged, always yields an ASCII letter or its argument, and is idempotent. No integer that is not a character is made a char (transmute) while the tables are built.",
  "every Unicode scalar value",
  "1.1 million characters, three compile-time linearised tables; the tests only check the listed entries",
  ["src/normalize.rs:linearize_batch,normalize,is_normalized"])
p("The ASCII fast path is transparent",
  "Matching an ASCII candidate through the byte-slice representation gives the same match decision, score and ranges as the general character representation would.",
  "every query, every ASCII candidate, every configuration, V1 and V2",
  "two representations, two search back ends (memchr vs. character comparison)",
  ["src/candidate.rs:Candidate::Ascii", F+"fzf.rs:distance"])
p("Distances are totally ordered, best first",
  "FzfDistance's ordering is a total order consistent with equality in which a higher score is a lower distance, so sorting ascending puts the highest score first.",
  "all pairs and triples of distances",
  "order laws quantify over all triples",
  [F+"distance.rs:Ord for FzfDistance", "src/metric.rs:Metric::Distance"])
p("Scoring schemes",
  "set_scoring_scheme stores a scheme from which the same FzfScheme is recovered; every positional bonus lies between 0 and 10, so caching it in one byte loses nothing, and a letter after a path separator gets a strictly larger bonus than after a space exactly under the Path scheme.",
  "every scheme, every pair of character classes, every character pair",
  "all combinations of characters, classes and schemes",
  [F+"scheme.rs", F+"scoring.rs", F+"slab.rs:Bonus"])
p("Scores are bounded and do not overflow",
  "A fuzzy, exact, prefix, suffix or equality match of an m-character pattern in an n-character candidate scores at most 26*m + 10; FzfV2 fuzzy scores are at least 16; V1 scores are at least 16*m - 3*n; no call overflows: with every sum, difference and product of scores checked to fit an i64 and the counter of consecutive matches checked to fit a u32, every call returns what it returns in unbounded integers, provided the candidate and the patterns have at most N characters, the patterns fewer than 2^32 - 1, and (number of conditions + 1) * (40 * N + 40) < 2^63.",
  "every pattern, candidate, configuration",
  "bounds over all inputs",
  [F+"fzf.rs:compute_score", F+"fzf_v2.rs:score_first_row,score_remaining_rows", F+"distance.rs:Score"])
p("Matching is monotone in the candidate",
  "If a fuzzy or exact pattern matches a candidate it also matches every candidate obtained by adding text before and/or after it.",
  "every pattern, candidate, prefix and suffix text, V1 and V2",
  "all extensions of all strings",
  [F+"fzf.rs:exact_match", F+"fzf_v1.rs", F+"fzf_v2.rs"])
p("Refining a query filters, widening it adds",
  "Adding a condition to an extended query never adds a match; adding an alternative to a condition never removes one; deleting characters from a fuzzy query never removes a match.",
  "every query, condition, alternative, candidate",
  "all queries and their refinements",
  [F+"fzf.rs:Fzf::distance"])
p("Pattern kinds are nested",
  "For the same text, case handling and candidate: an equality match implies a prefix match and a suffix match; a prefix or suffix match implies an exact match; an exact match implies a fuzzy match.",
  "every text, candidate, configuration, V1 and V2",
  "implications between five search procedures over all strings",
  [F+"fzf.rs", F+"fzf_v1.rs", F+"fzf_v2.rs"])
p("Exact matches choose the best-placed occurrence",
  "An exact pattern highlights and scores the leftmost occurrence whose positional bonus is at least the word-boundary bonus, or, if there is none, the leftmost occurrence with the largest positional bonus.",
  "every pattern text, every candidate, every configuration",
  "all occurrences of all patterns",
  [F+"fzf.rs:exact_match (best_bonus, prev_class)"])
p("V1 and V2 agree on queries without fuzzy patterns",
  "For queries containing only exact, prefix, suffix and equality patterns (negated or not) FzfV1 and FzfV2 return the same distance and append the same ranges.",
  "every such query, candidate, buffer and equal configuration",
  "all queries",
  [F+"fzf.rs:Fzf::score"])
p("FzfV2's score dominates every alignment's basic score",
  "FzfV2's fuzzy score is at least, for every alignment of the query in the candidate, the sum of 16 + positional bonus over the matched characters (first bonus doubled) minus 3 per skipped character between the first and last matched ones.",
  "every fuzzy query, every candidate, every alignment, every configuration",
  "maximum over exponentially many alignments",
  [F+"fzf_v2.rs:score_first_row,score_remaining_rows"])
p("Settings are independent and last write wins",
  "set_case_sensitivity, set_candidate_normalization and set_scoring_scheme each change only their own setting, the last write wins, and no distance call changes a setting.",
  "every sequence of setter and distance calls",
  "all call sequences",
  [F+"fzf_v1.rs:set_*", F+"fzf_v2.rs:set_*"])
p("FzfV2 computes fzf's scoring table",
  "For a fuzzy query of two or more characters FzfV2 returns the largest score of a matching cell of fzf's table (rows: query characters, starting where the leftmost alignment puts them; columns: candidate characters up to the last match of the last query character), defined by the recurrence: match the character on top of the previous row and column, or keep the score on the left minus a gap penalty; and it highlights exactly the columns visited by the traceback from the first such cell, row by row.",
  "every fuzzy query of two or more characters, every candidate, every configuration, every reachable state of the metric",
  "the table has query length times candidate length cells; a wrong boundary in one of them changes the result only for particular inputs",
  [F+"fzf_v2.rs:matches,score_first_row,score_remaining_rows,matched_ranges"])
p("FzfV2's score is that of an alignment",
  "FzfV2's fuzzy score is not larger than the documented score (16 per character, bonuses, gap penalties) of some alignment of the query in the candidate.",
  "every fuzzy query, every candidate, every configuration",
  "maximum over exponentially many alignments",
  [F+"fzf_v2.rs:score_first_row,score_remaining_rows"])
p("Exact matches choose by the classes their search sees",
  "An exact pattern highlights and scores the occurrence that is best placed with respect to bonuses computed from the class the search believes the preceding character to have: that character's own class if it was skipped, otherwise what the last attempt left behind (the last character it matched, not counting the pattern's last one; for a one-character pattern the class from before the match).",
  "every pattern text, every candidate, every configuration, every reachable state of the metric",
  "depends on how all the failed and successful attempts before an occurrence overlap",
  [F+"fzf.rs:exact_match (best_bonus, prev_class)"])
p("What a further condition adds to the highlights",
  "With a condition added to an extended query that matches, the highlighted bytes are those highlighted without it and, if the condition's first matching alternative is fuzzy, all bytes highlighted for that alternative alone; for any other alternative, the bytes of its block up to the end of the first already highlighted range that starts after the block's first byte (all of them if there is none). Negated alternatives highlight nothing.",
  "every extended query and added condition, every candidate, every configuration",
  "all overlaps between a block and any number of earlier ranges",
  ["src/matched_ranges.rs:MatchedRanges::insert", F+"fzf.rs:Fzf::distance"])
p("Candidate normalization is replacing the listed characters",
  "For a query string without characters that normalization would replace, a metric with candidate normalization accepts a candidate exactly when the same metric without it accepts the candidate with every listed character replaced by its ASCII letter.",
  "every query string without listed characters, every candidate, every case sensitivity and scheme, V1 and V2",
  "all candidates mixing listed and unlisted characters, for every kind of pattern, negated ones included",
  ["src/utils.rs:normalize_candidate_char", "src/normalize.rs:normalize", "src/candidate.rs:find_first"])
p("Case-insensitive search with normalization ignores the case of accented letters",
  "With CaseSensitivity::Insensitive and candidate normalization, changing the case of any letters of the candidate, accented ones included, does not change whether it matches.",
  "every query, candidate and set of case flips, V1 and V2",
  "needs all pairs of case forms of the several hundred accented letters in all positions",
  ["src/normalize.rs:FIRST_BATCH,SECOND_BATCH", "src/utils.rs:case_insensitive_normalized_eq", "src/case_sensitivity.rs"])
p("The default distance is that of an empty query, and every match is closer",
  "FzfDistance::default() is what a query without patterns returns, and whatever matches a query of non-negated patterns is closer than that.",
  "every query, candidate, configuration, V1 and V2",
  "penalties grow with the candidate's length, so that small candidates say nothing about large ones",
  [F+"distance.rs:Default", F+"fzf.rs:compute_score"])
p("The results of every call",
  "parse returns exactly the query that its string stands for (pieces, sigils, alternatives). distance and distance_and_ranges return exactly the described outcome: the score is the sum over the conditions of what their first matching alternatives score; FzfV1 scores and highlights the alignment that ends earliest, starts latest and is leftmost; FzfV2 the best cell of its table and that cell's traceback; exact, prefix, suffix and equality patterns a determined occurrence; negated patterns nothing; the appended ranges are the maximal stretches of highlighted characters. The description is unambiguous, so that a program that differs in the result of any call does not satisfy it.",
  "every query string, every candidate, every configuration, every buffer, every reachable state of the metric, V1 and V2",
  "equality of two programs on all inputs",
  [F+"fzf.rs", F+"fzf_v1.rs", F+"fzf_v2.rs", F+"parser.rs", "src/matched_ranges.rs"])
p("FzfV2 is close to the best alignment",
  "For a non-empty fuzzy query, the score returned by FzfV2 is at least the documented score (16 per character, bonuses, gap penalties) of every alignment of the query with the candidate, less 1 less than twice the scheme's largest bonus (19 by default) and less 2 more than this bonus (12 by default) for every query character but the first two; for a query of one character it is at least that of every alignment. The shortfall does not depend on the candidate or on how much of it is skipped.",
  "every non-empty fuzzy query, every candidate, every alignment, every configuration",
  "a shortfall that grows slowly with the candidate would only show for candidates larger than any tested",
  [F+"fzf_v2.rs:score_first_row, score_remaining_rows"])
p("No candidate is closer to a fuzzy query than the query itself",
  "Among all candidates, the query's own text has the largest score for a fuzzy query: distance(q, q) <= distance(q, s) for every s. More precisely, candidates that start with the query's text, and for FzfV2 those in which it starts a word, have the largest score any candidate can have.",
  "every fuzzy query, every candidate, every configuration, V1 and V2",
  "a maximum over all strings",
  [F+"scoring.rs:compute_bonus", F+"fzf.rs:compute_score", F+"fzf_v2.rs:score_remaining_rows"])
p("Appending text to a candidate does not make it more distant",
  "For a fuzzy query that matches a candidate, appending any text to the candidate does not lower the score; for FzfV1 it changes neither the distance nor the ranges.",
  "every fuzzy query, every matching candidate, every appended text, every configuration, V1 and V2",
  "all pairs of candidate and continuation",
  [F+"fzf_v1.rs:forward_pass,backward_pass", F+"fzf_v2.rs:score_first_row,score_remaining_rows"])
p("The order of conditions does not matter",
  "Permuting the conditions of an extended query does not change the distance; permuting the alternatives of its conditions does not change whether it matches.",
  "every extended query, every permutation, every candidate, every configuration, V1 and V2",
  "all permutations of any number of conditions",
  [F+"fzf.rs:Fzf::distance"])
p("A query keeps reading what was parsed",
  "parse, parse_not_extended and clone never follow a dangling reference or one out of bounds, whatever was done with the parser and other parsers before (including dropping a parser whose clone is still in use). The query that parse or parse_not_extended returns refers to what its string stands for, even if buffers were moved while parsing, and keeps doing so until its own parser is used again, whatever is done with other parsers. This is what the unsafe lifetime extensions of the parser, commented `SAFETY: todo`, rely on.",
  "every sequence of operations on any number of parsers, every string, every choice of which buffers move when they grow",
  "a dangling reference usually reads as the old contents in tests; all interleavings of parsers, and all choices of the allocator",
  [F+"parser.rs:FzfParser::parse,parse_not_extended,Patterns::next,Words::next", F+"query.rs:FzfQuery::new_extended,Pattern::parse"])
p("A call reads its query and its candidate as they were given",
  "distance and distance_and_ranges hold references to the parser's buffers (the query) and, for candidates that are not ASCII, to the metric's own buffer, to which they write while they run. They nevertheless return what they would with copies of the query and candidate: following the references for every pattern anew, in the state the metric is then in, gives the same results and final states. From parsing a string to calling either method with the query, with anything done to other parsers in between, the call returns the outcome of the query that the string stands for.",
  "every query, every candidate, every reachable state of the metric and of all parsers, every operation on other parsers between parsing and the call, V1 and V2",
  "an overwritten candidate shows only for queries of several patterns and candidates that are not ASCII, depending on the sizes of buffers",
  [F+"fzf_v1.rs:alloc_chars", F+"fzf_v2.rs:alloc_chars", F+"fzf.rs:Fzf::distance", F+"slab.rs:CandidateSlab::alloc"])
p("Only the text around the matches matters",
  "Text appended to a candidate changes neither the distance to a fuzzy query nor the ranges, if none of its characters matches the query's last character. Text put before a candidate does not change the distance, and moves the ranges by its length in bytes, if neither it nor the candidate's first character contains a match of the query's first character. Both hold as well for a query that is one exact word, negated or not.",
  "every non-empty fuzzy query and every exact word, every candidate (matching or not), every such text, every configuration, every buffer, V1 and V2",
  "all pairs of candidate and surrounding text of any length; the tables of FzfV2 are sized by the part of the candidate that matters",
  [F+"fzf_v1.rs:forward_pass,backward_pass", F+"fzf_v2.rs:matches,score", F+"fzf.rs:compute_score", "src/candidate.rs:find_first_from,find_last"])
p("Buffers are bounded by the largest inputs",
  "The vectors that a metric keeps between calls never shrink, and after any number of calls none is longer than it was when the metric was new or than the largest call asks for: one element of the candidate's buffer for each byte of the candidate, and for FzfV2 one bonus for each character of the candidate, one index for each character of the longest pattern, and a cell of each matrix for each pair of a character of the pattern and one of the candidate. As long as candidates have at most 128 bytes, patterns at most 128 characters and the product of both is at most 256, no vector ever grows. The parser's vectors are bounded likewise by the longest string parsed.",
  "every sequence of calls of any length, every query, every candidate, every configuration, V1 and V2, whether calls match or not",
  "a leak or a needless reallocation shows only after long sequences of calls, and in no result",
  [F+"slab.rs:BonusSlab::alloc,CandidateSlab::alloc,MatchedIndicesSlab::alloc,MatrixSlab::alloc", F+"parser.rs:FzfParser::parse", F+"fzf_v2.rs:FzfV2::fuzzy"])
p("What metrics, parsers and distances print",
  "Printed with {:?} or {:#?}, a metric shows its name and its current settings: the ones last written, whatever was called in between. Two metrics print alike if and only if they are of the same type and have the same settings, and two distances if and only if they are equal. Nothing is ever printed as an empty string.",
  "every sequence of calls, every configuration, every score, V1 and V2",
  "all histories of calls; the scheme is guessed from its numbers when it is printed",
  [F+"fzf_v1.rs:Debug", F+"fzf_v2.rs:Debug", F+"scheme.rs:FzfScheme::from_inner", F+"distance.rs", F+"parser.rs:Debug"])
p("What a query prints",
  "A query prints the texts of its patterns, grouped by conditions, so that two queries that print alike search for the same texts.",
  "every query string, with any characters that need escaping",
  "uniqueness of reading among all strings",
  [F+"query.rs:Debug"])
p("What the types private to the crate print",
  "Printing a matrix of scores or the ranges of a call does not panic; the matrix is a table all lines of which have the same length, and the ranges are separated by commas. A candidate prints as its text does, whether it is stored as bytes or as characters.",
  "every matrix that is not empty, every list of ranges, every candidate",
  "all contents; this code runs only while debugging",
  [F+"slab.rs:Debug,Rows,Cols,MatrixItem::printed_width", "src/candidate.rs:Debug", "src/matched_ranges.rs:Debug"])
p("FzfV1 takes time linear in the candidate",
  "FzfV1's distance runs in O(len(candidate)), for matches and non-matches, whatever the query's length; reporting the ranges as well adds at most the cost of keeping them sorted.",
  "every query, every candidate, every configuration, every history of the metric; counted in bytes, characters and cells that the code touches",
  "a bound on the time of all inputs; benchmarks show one input at a time",
  [F+"fzf_v1.rs:FzfV1", F+"fzf.rs", "src/matched_ranges.rs:MatchedRanges::insert"])
p("FzfV2 takes time proportional to query times candidate",
  "FzfV2's distance, and distance_and_ranges, run in O(len(query) * len(candidate)), where the length of the query is the total length of its patterns, which is at most that of the string parsed.",
  "every query, every candidate, every configuration, every history of the metric, whatever the vector of ranges holds; counted in bytes, characters and cells that the code touches",
  "a bound on the time of all inputs",
  [F+"fzf_v2.rs:FzfV2", F+"fzf.rs", F+"slab.rs", "src/matched_ranges.rs:MatchedRanges::insert"])
p("FzfV2 filters out non-matches in linear time",
  "When the candidate does not match, FzfV2's distance runs in O(len(candidate)), whatever the query's length.",
  "every query, every candidate that does not match, every configuration, every history of the metric",
  "a bound on the time of all inputs",
  [F+"fzf_v2.rs:FzfV2::fuzzy", F+"fzf.rs:exact_match"])
p("Parsing takes linear time",
  "FzfParser::parse runs in time linear in the length of the string in bytes, and parse_not_extended in its characters, whatever was parsed before.",
  "every string, every state of the parser; counted in bytes and characters looked at or written, and elements of vectors that grow",
  "a bound on the time of all inputs: escaped spaces, alternatives and words without text make the loops go round without result",
  [F+"parser.rs:FzfParser::parse,parse_not_extended,Patterns::next,Words::next", F+"query.rs:Pattern::parse,Pattern::raw", "src/utils.rs:strip_leading_spaces"])
p("The fuzz target finds nothing",
  "fuzz/fuzz_targets/fzf.rs, given any query string and candidate, runs to its end without panicking: parsing, then for each of the 18 settings distance_and_ranges of the same FzfV1 and of the same FzfV2 with the same growing vector of ranges, slicing the candidate by every range in the vector after every call.",
  "every query string, every candidate",
  "fuzzing runs on finitely many inputs; this is what it looks for, on all of them",
  ["fuzz/fuzz_targets/fzf.rs", F+"parser.rs:FzfParser::parse", F+"fzf.rs:Fzf::distance"])
p("Searching a list",
  "Filtering a list of candidates by one metric's distance and sorting what is left by it, as examples/cities.rs and the documentation do, does not panic and gives exactly the candidates that match, each as often as it is in the list and with the distance that a metric of the same settings returns that is used for nothing else; larger scores come first, and equal ones in the order of the list. This determines the results, so they do not depend on what the metric was used for before. Permuting the list permutes the results, with the same scores at every place.",
  "every list of any length, every query (extended or not), every configuration, every history of the metric, V1 and V2",
  "all lists; state left by one candidate that affects a later one shows only in long runs",
  ["examples/cities.rs:main", F+"distance.rs:Ord", F+"fzf.rs:Fzf::distance", "src/metric.rs"])
p("Typing narrows the results",
  "When characters are appended to a query string, every candidate that matches the new query matches the old one, so that searching among the previous results gives what searching the whole list does.",
  "every query string, every appended string, every candidate, every list, every configuration, V1 and V2",
  "all pairs of a query string and an extension; parsing, case sensitivity and matching have to agree",
  [F+"parser.rs:FzfParser::parse", F+"query.rs:Pattern::parse", F+"fzf.rs:Fzf::distance", "examples/cities.rs:main"])
p("What a query borrows is not written to",
  "FzfParser::parse and parse_not_extended write to no element, and borrow exclusively no buffer, of which a slice is in use: neither one of a query of another parser, nor one of the words and conditions that the call itself has handed out with a longer lifetime (transmute). With every write checked for this the calls return as they do unchecked. All the slices that can be read through the query are borrowed from then on, whatever is done with other parsers.",
  "every program that makes, clones, drops and uses parsers; every string; every choice of which buffers are moved when they grow",
  "undefined behaviour by aliasing has no effect that a test can see, other than under an interpreter that checks for it on the inputs tried",
  [F+"parser.rs:FzfParser::parse,parse_not_extended,Patterns::alloc,next,Words::alloc,next"])
p("Cloning copies no dangling reference",
  "The references in the buffers of a FzfParser, which FzfParser::clone copies, refer to memory that is allocated.",
  "every program that makes, clones, drops and uses parsers; every string; every choice of which buffers are moved when they grow",
  "a dangling reference that is copied but not followed has no effect that a test can see",
  [F+"parser.rs:FzfParser,FzfParser::clone,FzfParser::parse"])
p("Overflow never goes unnoticed",
  "Compiled for any width of usize, with or without overflow checks and debug assertions, and with vectors that can only get so long, parsing and both distance calls either return exactly what they return with unbounded numbers and vectors, and leave the same state, or panic. parse_not_extended is the same in every build.",
  "every build whose vectors take at most isize::MAX bytes, every string and candidate of at most isize::MAX bytes, every history of parsers and metrics in that build",
  "overflows need inputs of gigabytes; in a release build they wrap around silently",
  ["src/candidate.rs", "src/matched_ranges.rs", F+"slab.rs", F+"parser.rs", F+"fzf.rs", F+"fzf_v1.rs", F+"fzf_v2.rs"])
p("Strings in memory cause no panic for want of room",
  "Parsing a string that is in memory, and calling a metric with it and a candidate that is in memory, needs no vector that is larger than a Vec can be.",
  "every build whose vectors take at most isize::MAX bytes, every string and candidate of at most isize::MAX bytes, every history of parsers and metrics in that build",
  "needs inputs of gigabytes, or a 32-bit system",
  [F+"slab.rs:MatrixSlab::alloc,CandidateSlab::alloc", F+"parser.rs:FzfParser::parse", F+"fzf_v2.rs:FzfV2::fuzzy"])
p("Which queries can be written",
  "A list of conditions, each a non-empty list of alternatives, is what some query string parses to exactly when every pattern has a word, and no word but the last ends with a backslash. Fuzzy patterns that are not negated, and exact ones that are, have no word if their text starts with ' or ^ or ends with $ (unless it is $); nor has a prefix pattern whose text ends with $, a suffix pattern whose text starts with ' or ^, a fuzzy or suffix pattern that is not negated and starts with !, or the fuzzy pattern |. All others have one, so that of all kinds only exact patterns, negated fuzzy ones, and equality patterns exist for every text. A string is given for every such list.",
  "every list of conditions",
  "it is about all strings that one could type, and that there is none",
  [F+"parser.rs:FzfParser::parse", F+"query.rs:Pattern::parse", F+"parser.rs:Words::next,Patterns::next"])
p("A caught panic does no harm",
  "After a call of parse, parse_not_extended, distance or distance_and_ranges that panicked and was caught, the parser or metric can be used as if the call had not been made: parse returns the same query as on a new parser, parse_not_extended still takes every string it took before, and both distance calls return what a new metric with the same settings returns. In a build with bounded vectors, parse and distance also panic exactly when they do on a new parser or metric. No dangling reference is followed, and the queries of other parsers read as before.",
  "every history of parsers and metrics with any number of panicking calls, every string, query and candidate, and whatever the calls have left in the buffers",
  "a test would have to make calls panic at every point at which they can, and to try everything after each of them",
  [F+"parser.rs:FzfParser::parse,parse_not_extended", F+"slab.rs", F+"fzf_v1.rs:FzfV1", F+"fzf_v2.rs:FzfV2", F+"fzf.rs:Fzf::distance"])
p("Only the lengths of a metric's buffers affect its time",
  "The steps of distance and distance_and_ranges depend on the calls made before with the same metric only through the lengths of its buffers, not through what they hold, and not on the vector of ranges passed in. With longer buffers they are no more; a metric that has been used is never slower than a new one with the same settings; and a repeated call makes no buffer longer and takes no more steps than the first.",
  "every two histories of calls of a metric (including calls that panicked), every query, candidate and vector of ranges, V1 and V2",
  "measured times vary; what is left in the buffers depends on all calls before",
  [F+"slab.rs", F+"fzf_v1.rs:FzfV1", F+"fzf_v2.rs:FzfV2", F+"fzf.rs:Fzf::distance"])
p("What the benchmarks measure",
  "The benchmarks of benches/common.rs never panic, however many iterations are made. All iterations but the first take the same number of steps, and the first one at least as many, so that the time of a warm metric is measured. The vector of ranges is not cleared: every iteration appends the same ranges again. The ids of the six combinations are different, for every suffix; the queries are single fuzzy patterns that match their candidates with every case sensitivity.",
  "every number of iterations, every query string, every list of candidates, every metric that API calls have made",
  "the number of iterations is up to the machine, and unbounded",
  ["benches/common.rs:bench,for_all_cases_and_ranges,param", "benches/fzf_v1.rs", "benches/fzf_v2.rs"])
p("The benchmarks of exact, prefix, suffix and equality patterns",
  "The queries of benches/fzf_common.rs have no fuzzy patterns, so that it does not matter whether V1 or V2 is used: the distances and the steps are the same.",
  "the four benchmarks; the part that is proved: every text without special characters in the place of MEDIUM_TEXT, every metric that API calls have made",
  "the benchmarks have no assertions; that two algorithms take the same steps holds for all candidates or not at all",
  ["benches/fzf_common.rs:exact,prefix,suffix,equal,bench", F+"parser.rs:FzfParser::parse"])
p("Which calls report ranges",
  "distance_and_ranges adds something to the vector exactly if some condition of the query, before which all conditions are met, has a first matching alternative that is not negated; with a query that is not extended, exactly if it is not empty and matches. So a query of negated patterns only never reports a range, and a match with any other query reports one unless every condition is met by a negated alternative.",
  "every metric that API calls have made, every query and candidate, V1 and V2",
  "V2 can highlight only part of a match, so that there could be a match in which it highlights nothing",
  [F+"fzf.rs:Fzf::distance,Fzf::score", F+"fzf_v2.rs:FzfV2::fuzzy,matched_ranges", F+"fzf_v1.rs:FzfV1::fuzzy", "src/matched_ranges.rs"])
p("Asking for ranges never makes a call faster",
  "distance_and_ranges takes at least as many steps as distance with the same metric, query and candidate; it takes exactly as many if and only if it reports no range. So ranges cost nothing with negated patterns, and when a query that is not extended does not match.",
  "every metric that API calls have made, every query, candidate and vector of ranges, V1 and V2",
  "measured times vary by more than what is compared",
  [F+"fzf.rs:Fzf::distance,Fzf::score,compute_score", F+"fzf_v2.rs:matched_ranges", F+"fzf_v1.rs:FzfV1::fuzzy", "src/matched_ranges.rs:MatchedRanges::insert"])
p("Repeating an alternative",
  "A word w and the query `w | w` give the same distance and ranges. More generally, an alternative of a condition that matches only candidates which an earlier alternative of it matches can be left out.",
  "every metric that API calls have made, every query and candidate, V1 and V2; for the first sentence every word",
  "the parser treats a query of one word differently from all others",
  [F+"fzf.rs:Fzf::distance", F+"parser.rs:FzfParser::parse"])
p("Repeating a condition",
  "A condition of the query written once more changes neither which candidates match nor the ranges, and adds to the distance what the condition alone is worth.",
  "every metric that API calls have made, every extended query and candidate, V1 and V2",
  "how an inserted range is merged depends on all ranges before it",
  [F+"fzf.rs:Fzf::distance", "src/matched_ranges.rs:MatchedRanges::insert"])
p("The scheme History adds no points",
  "FzfScheme::History \"doesn't assign any additional bonus points\": with the same other settings, query and candidate, its score is at most that of FzfScheme::Default, both accept the same candidates, and the ranges are the same.",
  "all metrics that API calls have made and that differ in the scheme, every query and candidate, V1 and V2",
  "V2 compares runs with each other, so that a larger bonus in one place can make it choose a worse match in another",
  [F+"scheme.rs:FzfScheme,DEFAULT,HISTORY", F+"scoring.rs:bonus", F+"fzf_v2.rs:score", F+"fzf_v1.rs:FzfV1::fuzzy"])
p("What a fuzzy match depends on",
  "A fuzzy query gives two candidates the same distance if its characters match at the same positions of both, with the same positional bonuses there. No other character of a candidate matters, and not how many follow. If the characters at each position also lie at the same bytes, the ranges are the same.",
  "every metric that API calls have made, every fuzzy query, every two candidates, V1 and V2",
  "V2 fills a table with a cell for every pair of a query character and a candidate character, also where they do not match",
  [F+"fzf_v1.rs:forward_pass,backward_pass", F+"fzf_v2.rs:matches,score,matched_ranges"])
p("Slashes and spaces",
  "Of two candidates of which one has spaces where the other has slashes, for a fuzzy query without slashes and spaces: both match or neither does; FzfScheme::Default scores the one with the spaces no lower, FzfScheme::Path the one with the slashes no lower, and with FzfScheme::History both have the same distance and ranges (the example in the documentation of set_scoring_scheme).",
  "every metric that API calls have made, every fuzzy query without / and space, every candidate, every choice of slashes that are replaced, V1 and V2",
  "the example in the documentation has one candidate, in which every character stands alone",
  [F+"fzf_v1.rs:FzfV1::set_scoring_scheme", F+"fzf_v2.rs:FzfV2::set_scoring_scheme", F+"scheme.rs", F+"scoring.rs:char_class,compute_bonus"])
p("Candidates that start with the word",
  "If `^w` matches a candidate, `'w` returns the same distance for it, and the same ranges unless w consists of spaces; so does the fuzzy w with FzfV1, and with FzfV2 it scores at least as much unless w starts with a space. If `^w$` matches, `^w` and `w$` return the same distance and ranges.",
  "every metric that API calls have made, every non-empty word and every candidate, V1 and V2; for `'w` every classification of the characters in which those the normalization replaces are no numbers",
  "the five searches are separate code, and the exact one goes on after an occurrence unless its bonus is large enough",
  [F+"fzf.rs:exact_match,prefix_match,suffix_match,equal_match,ignored_candidate_leading_spaces", F+"fzf_v1.rs:forward_pass,backward_pass", F+"fzf_v2.rs:score"])
p("Which letters are used does not matter",
  "Exchanging letters for letters (capitals accordingly) and digits for digits, in the query string and in the candidate alike, changes neither the distance nor the ranges.",
  "every such exchange that keeps different characters different, every metric that API calls have made, every query, V1 and V2; every candidate if candidates are not normalized, otherwise every candidate without characters that the normalization replaces; every classification of characters that knows the capitals of ASCII",
  "tests use particular letters; the parser gives some characters a meaning, and comparisons of bytes and of characters are separate code",
  [F+"parser.rs:FzfParser::parse", F+"fzf.rs:Fzf::distance,exact_match", F+"fzf_v1.rs:FzfV1::fuzzy", F+"fzf_v2.rs:FzfV2::fuzzy", "src/candidate.rs"])
p("What the platform and the version of Unicode can change",
  "Two builds that agree on which characters of the query are upper case and on the classes of the candidate's characters parse the same query and return the same distance and ranges. For a query and a candidate in ASCII this holds for all builds, except that with FzfScheme::Path a backslash is a separator only on Windows.",
  "all platforms and all classifications of characters, every metric that API calls have made, every query and candidate, V1 and V2; for the second sentence all classifications that know the capitals of ASCII",
  "tests run on one platform with one version of Unicode",
  [F+"scheme.rs:PATH", F+"scoring.rs:char_class", F+"parser.rs:FzfParser::parse", F+"query.rs:Pattern::parse"])
p("When case sensitivity and normalization matter",
  "Two metrics with the same scoring scheme return the same distance and ranges unless their settings differ on some pair of a query character and a candidate character. So the case sensitivity does not matter unless a letter of the query stands in the candidate in the other case, and the normalization does not matter for candidates without characters that it replaces. A prefix, suffix or equality pattern that matches with both settings has the same distance and ranges with both.",
  "all metrics that API calls have made and that have the same scheme, every query and candidate, V1 and V2",
  "the settings choose between several comparison functions, and V2 and the byte search have variants of their own for each",
  [F+"fzf.rs:Fzf::distance,exact_match,prefix_match,suffix_match,equal_match", F+"fzf_v1.rs:FzfV1::set_case_sensitivity,FzfV1::set_candidate_normalization", F+"fzf_v2.rs:FzfV2::set_case_sensitivity,FzfV2::set_candidate_normalization", "src/candidate.rs"])
p("The binary search among the ranges",
  "Whenever a range is inserted, the ranges of this call have strictly increasing starts. So binary_search_by is only called where its documentation determines its result, and the loop of the standard library finds it, with at most one comparison more than the number of halvings down to one range.",
  "every metric that API calls have made, every query that a parser returns, every candidate and vector of ranges, V1 and V2",
  "on a slice that is not sorted the search usually finds something, and what it finds may depend on the version of the standard library",
  ["src/matched_ranges.rs:MatchedRanges::binary_search_by,MatchedRanges::insert"])
p("The number of ranges",
  "distance_and_ranges appends at most one range for each character of a fuzzy word, one for each other word and none for a negated one, counting of the alternatives of a condition the one with the most; and at most one for every two bytes of the candidate, rounded up. What it highlights are at most as many characters as the words have that are not negated, counted in the same way.",
  "every metric that API calls have made, every query, candidate and vector of ranges, V1 and V2",
  "ranges are merged as they are inserted, and FzfV2 reads the characters to highlight off a matrix whose cells need not belong to one match",
  [F+"fzf.rs:Fzf::distance,compute_score", F+"fzf_v2.rs:matched_ranges", "src/matched_ranges.rs:MatchedRanges::insert"])
p("Spaces around a candidate",
  "When no pattern of the query begins or ends with a space, which holds for every query without an escaped space, spaces behind a candidate change neither the distance nor the ranges. Spaces before it do not change whether it matches; except with FzfScheme::Path they do not change the distance either, and shift the ranges by as many bytes.",
  "every metric that API calls have made, every query with such patterns of all five kinds, negated or not, every candidate and any number of spaces, V1 and V2",
  "the five searches are separate code and treat the beginning of a candidate each in their own way",
  [F+"fzf.rs:exact_match,prefix_match,suffix_match,equal_match,compute_score", F+"fzf_v1.rs:FzfV1::fuzzy", F+"fzf_v2.rs:FzfV2::fuzzy", F+"candidate.rs", F+"scheme.rs"])
with open("/verif/properties.jsonl","w") as f:
    for x in P: f.write(json.dumps(x,ensure_ascii=False)+"\n")
print(len(P))
