# Formal model of nomad/norm — design

`norm` provides two fuzzy-matching metrics, `FzfV1` and `FzfV2`, and a query parser, `FzfParser`.
The Lean project in `lean/` contains an executable model of that code, a small specification,
and kernel-checked proofs of the properties in `properties.jsonl`. `MANIFEST.json` maps each property
to its theorems.

## Layout

| Layer | Files (`lean/Verif/`) | Contents |
| --- | --- | --- |
| Model | `Model/*.lean` | function-by-function transcription of `/repo/src`; every definition cites file and lines |
| Checked model | `Model/Checked.lean` | the scoring functions again, with `i64`/`u32` arithmetic that panics on overflow |
| With references | `Model/Memory.lean`, `Model/MemoryCalls.lean`, `Model/Borrows.lean` | the parser and the constructors of queries again, with slices as references into allocations that can be freed; the calls again, with such queries and with candidates that refer to the metric's buffer; the parser once more, with every write checked against what is borrowed |
| Specification | `Spec.lean`, `SpecQuery.lean`, `SpecGrammar.lean`, `SpecApi.lean`, `SpecV2.lean`, `SpecExact.lean`, `SpecCase.lean`, `SpecOutcome.lean`, `SpecMemory.lean`, `SpecSizes.lean`, `SpecDebug.lean`, `SpecTime.lean`, `SpecSearch.lean`, `SpecBorrows.lean`, `SpecUsize.lean`, `SpecWritable.lean`, `SpecLetters.lean`, `SpecPlaces.lean`, `SpecRename.lean`, `SpecBisect.lean`, `SpecCount.lean` | what the English properties talk about: subsequences, occurrences, alignments, documented scores, words, sigils, conditions, call histories |
| Proofs | `Proofs/*.lean` | helper lemmas, loop invariants, refinement of the model to pure functions |
| Properties | `Props/*.lean` | the theorems named `Cnn_*`, each with a non-trivial concrete case beside it |
| Replayed tests | `Tests/Upstream.lean`, `Tests/Repo.lean` | the repository's own tests and doc examples, evaluated in the model by the kernel. They test the model's fidelity; they are not proofs of properties |

`tools/mkprops.py` writes `properties.jsonl`, `tools/mkmanifest.py` writes `MANIFEST.json` (and checks that the
names exist). `seeded/LOG.jsonl` records the wrong programs the theorems were tested against.

## Trusted base

1. **Lean's kernel** (4.33.0), and the pretty-printed statements.
2. **Axioms.** No theorem uses an axiom other than Lean's standard three: `propext`, `Quot.sound`,
   `Classical.choice`. `C26_false`, `C26_panics_iff` and `C62_reads_unique` use `propext` and `Quot.sound` only; `C41_schemes` uses
   `propext` only; `C65_new` uses none; every other property theorem uses all three (`#print axioms`). There is no `sorry`, no `native_decide`, no
   `bv_decide` and no axiom of our own. `decide +kernel` is used for finite tables and for concrete examples; it is
   evaluated by the kernel.
3. **The model is a faithful transcription** of the Rust source. It was written by reading; the
   code was not run. The replayed tests (all integration tests of `tests/`, the unit tests in `src/`, the doc examples)
   support this.
4. **The contracts of library functions** listed under *Contracts*.
5. **The specification files** say what the English properties say.

## Modelling conventions

* A Rust function that mutates `&mut` state returns the new state.
* A Rust panic (index out of bounds, `unwrap` on `None`, `expect`, bad slice range, slicing a `str` off a
  character boundary, `usize` underflow, `debug_assert!`) is the explicit value `Res.panic`. Every slice or index
  operation of the code is a checked operation in the model, so "never panics" is a theorem and not an artefact of
  totalisation.
* Loops are structural recursions; the loops without an evident bound (`'outer` loop of
  `exact_match`, `Words::next`, `Patterns::next`, traceback of `matched_ranges`) take fuel, and running out of
  fuel is `Res.panic`, so "never panics" includes termination.
* `i64` scores are `Int` and `usize` offsets are `Nat`. `Model/Checked.lean` repeats the scoring code with
  overflow-checked `i64` and `u32` arithmetic, and C42 proves that both agree on all inputs of realistic size (the hypothesis
  `Sizes`). `usize` additions and multiplications are exact in the main model, and vectors grow without bound. `Model/Usize.lean`
  and `Model/UsizeParser.lean` repeat the code with a `usize` of any width that panics (debug) or wraps around (release), with
  `debug_assert!` only in a debug build, and with vectors whose lengths are limited. C78 proves that this makes no difference
  other than a panic, and C79 when there is none. (Not distinguished: a panic for want of capacity, and an abort for want of memory.)
* A panic may be caught, and the parser or metric be used again. The histories of calls (`Reachable`, `ReachableParser`,
  `ReachableIn`, `ReachableParserIn`, `ReachableWorld`, `ReachableB`) have steps for that: a panicking call leaves anything in the
  buffers, does not make them shorter, and does not touch the settings. That it does no more than this is read off the code: the
  settings are assigned in the setters only, and the vectors are only resized to more elements and written to by index. (For the
  parser the states that are left when a vector cannot grow, or ends, are modelled, and C81 proves that they are among these.)
  All properties about such histories therefore hold after panics. The other histories (`ReachableWithin` of C65, `ReachableInPlace` of
  C77 and the programs of C73 to C75) are without panicking calls.
* Making a `char` of an integer (`transmute` in `linearize_batch`) is `Res.panic` if the integer is not that of a character.
* The `u8` cache of bonuses is modelled with truncation (`% 256`) because it is a narrowing cast.
* The reusable slabs (`CandidateSlab`, `BonusSlab`, `MatchedIndicesSlab`, the two `MatrixSlab`s) and the
  parser's buffers are part of the state, with their stale contents.
* `const RANGES: bool` is a `Bool` parameter. The trait `Fzf` is a structure of functions, instantiated for V1 and V2;
  the trait `Metric` is the sum of its two implementors.
* A `&str` is the list of its Unicode scalar values; byte operations go through its UTF-8 encoding.
* Unicode character classification (`char::is_uppercase`, ...) and the platform (`cfg(windows)`) are a parameter
  `U : Unicode`; every theorem holds for every `U`.

## What is modelled

All of `src/` except what is listed below:

| Source | Model |
| --- | --- |
| `src/utils.rs`, `src/case_sensitivity.rs` | `Model/Utils.lean` |
| `src/normalize.rs` (with its three tables and `linearize_batch`) | `Model/Normalize.lean` |
| `src/candidate.rs` | `Model/Candidate.lean` |
| `src/matched_ranges.rs` | `Model/MatchedRanges.lean` |
| `src/metric.rs` | `Model/Metric.lean` |
| `src/metrics/fzf/{mod,distance,scheme,scoring}.rs` | `Model/Scoring.lean` |
| `src/metrics/fzf/query.rs` | `Model/Query.lean` |
| `src/metrics/fzf/parser.rs` | `Model/Parser.lean`, and with references `Model/Memory.lean` |
| `src/metrics/fzf/{slab,candidate}.rs` | `Model/Slab.lean` |
| `src/metrics/fzf/fzf.rs` | `Model/Fzf.lean`, and with references `Model/MemoryCalls.lean` |
| `src/metrics/fzf/fzf_v1.rs` | `Model/V1.lean` |
| `src/metrics/fzf/fzf_v2.rs` | `Model/V2.lean` |
| all `Debug` implementations | `Model/Debug.lean` |
| `fzf.rs`, `fzf_v1.rs`, `fzf_v2.rs` again, counting steps | `Model/Timed.lean` |
| `parser.rs` again, counting steps | `Model/TimedParser.lean` |
| the parser's writes, and what is borrowed of its buffers | `Model/Borrows.lean` |
| all of it but `Debug` again, with bounded numbers and vectors | `Model/Usize.lean`, `Model/UsizeParser.lean` |
| `fuzz/fuzz_targets/fzf.rs`, the search of `examples/cities.rs` | `Model/Programs.lean` |
| `benches/*.rs`, counting steps | `Model/Benches.lean` |

### Not modelled

* Memory: a slice is a value, except in `Model/Memory.lean` and `Model/MemoryCalls.lean`. In the former the parser's slices are
  references, `Vec`s that grow may be moved and parsers can be cloned and dropped; in the latter the query is made of such references
  and a candidate that is not ASCII refers to the metric's own buffer, and both are read anew for every pattern. C62 and C63 prove that
  this comes to the same, which is what the `transmute`s of lifetimes need. While one pattern is scored the candidate is a value
  (the scoring writes to other buffers of the metric).
* Aliasing, except in `Model/Borrows.lean` for the parser: there a write must not touch what is borrowed, element by element for an assignment
  to an element of a slice and the whole buffer where a `Vec` is borrowed exclusively. (Rust has not settled its rules; this is what
  Stacked Borrows and Tree Borrows have in common here.) Where lifetimes are checked by the compiler, that is from call to call, what is
  borrowed of a parser ends when the parser is used.
* Time, except as the number of bytes, characters, cells and ranges that the code touches (`Model/Timed.lean`, `Model/TimedParser.lean`, C69–C72).
* `Debug` with flags other than `{:?}` and `{:#?}` (width, hexadecimal digits).
* The behaviour of the original fzf, with which the documentation promises to agree: its source is not in the
  repository.

### Contracts

* `memchr`, `memrchr`, `memchr2`, `memrchr2` and their iterators: first, last, all indices of the given bytes.
* `slice::binary_search_by` on a slice strictly sorted by the key: the index of the equal element, or the insertion point. On any
  other slice it panics in the model, and it is proved that there is no panic. C96 proves the contract of the loop in the standard library.
* `str::is_ascii`, `str::as_bytes`, `str::chars`, `char::len_utf8`, `char::eq_ignore_ascii_case`, `Vec::resize`, `Vec::insert`,
  `Vec::remove`: as documented.
* `slice::sort_by_key`: a stable sort by the `Ord` of the key (modelled by insertion sort, to which every other one is equal).
* `core::fmt`: `Debug` of strings (which characters are written as `\u{…}` is a parameter), integers, `bool` and ranges, `debug_struct`,
  `debug_tuple`. The call `x.fmt(f)` in an `impl Debug` is taken to be `Debug::fmt`, as the trait being implemented is in scope.
* `criterion`: `Bencher::iter` calls its closure some number of times, one after the other; it is measured, not what is before.

## Where the code does not do what the property says

Each is a theorem `Cnn_false` with a concrete witness, and what remains true is proved.

| Property | Discrepancy | Witness |
| --- | --- | --- |
| C08 | the query `!'foo` alone is turned into a non-extended query, which ignores the negation | `!'foo` matches `foo` |
| C14 | when a later condition fails, the ranges of the earlier ones stay in the buffer, although `Metric` documents that the buffer is left untouched | `a z` in `abx` |
| C18 | FzfV2 takes the best cell of any row, and scores can fall below those of shorter prefixes; so it may highlight only part of the query, or a character that does not match | `ab` in `aab` highlights only the first `a` |
| C20 | `MatchedRanges::insert` of a range that covers several present ranges forgets some of its bytes | `'b 'abc` in `abc` |
| C24 | FzfV2 charges a gap as newly started after every skipped match | `abc` in `abbxc`: V1 74, V2 72 |
| C48 | a match of the first query character replaces the earlier ones, even if they score more | `ab` in `aab`: V2 36, `[0, 2]` 49 |
| C26 | `parse_not_extended` does not grow its buffer | any query of 65 characters on a new parser |
| C51 | the first character skipped after the last match of a row costs what it cost to reach that match (1 or 3) | `ab` in `a a b`: V2 61, alignments 57 and 59 |
| C55 | of most accented letters only the lower case form is in the normalization tables | `c` matches `č` but not `Č` |
| C56 | in FzfV1 a long gap makes the score of a match negative | `ab` in `a`, 60 times `x`, `b`: -10 |
| C59 | a digit or a symbol at the start of a candidate has a smaller bonus than a letter after a space | `1abc` in `1abc` 99, in `1 abc` 105 |
| C60 | as C51: what follows the last match of a row changes the penalty | `ab` in `a a b`: V2 61, in `a a bab`: 59 |
| C67 | a lone fuzzy word is printed without further quotes; negations and kinds of patterns are not printed at all | `"a"\\ &&\\ "b"` prints like `a b`, and `a !b` too |
| C68 | in `Debug for MatchedRanges` the loop variables hide the slices, so that `len()` is that of a range; `ilog10` of a negative score panics | `[0..1, 2..3]` and `[4..9]` print as `[0..12..3 \| 4..9, ]` |
| C69, C71 | `exact_match` starts again after the first character of a failed attempt, so its time is the product of the lengths; documented as `O(len(candidate))` | `a…ab` as an exact pattern in `a…a` |
| C71 | conditions are scored one after the other, so that a candidate is filtered out only after those before have been scored in full, in a time that is the product of the lengths; documented as `O(len(candidate))` | `a…a z` in `a…a` |
| C75 | appending to a query string can add results: alternatives, longer negated words, characters after `$`, escaped spaces; and a word after a lone `!'a`, as C08 | `a` and `a \| b` |
| C77 | `FzfParser` is `Clone` and keeps the patterns of earlier queries as `Pattern<'static>`; a clone copies references to characters that have been freed | parse `a b`, then 65 spaces, then clone; or clone after `a b` and drop the original |
| C79 | FzfV2 allocates matrices of a cell for each pair of a query character and a candidate character, which can have more bytes than a `Vec` may have | 2¹⁴ times `a` in itself on a 32-bit system, 2³⁰ times on a 64-bit system |
| C84 | "Using V1 or V2 doesn't matter because we're not doing fuzzy matching here", but the text from which the queries are cut has spaces | `'re live the blin` is an exact pattern and three fuzzy ones; `antics, a large.$`: V1 259, V2 338 |
| C46 | the class of the previous character is stale when `exact_match` restarts its search | `'a` in `ZaA` |
| C87 | a lone word that starts with `!'` is not negated, the alternatives of a condition are | `!'foo` matches `xfoo`, `!'foo \| !'foo` does not |
| C88 | a block that was cut when it was merged with later ranges is continued when it is inserted again | `'b 'd ^abcde` and `'b 'd ^abcde ^abcde` in `abcde` |
| C89 | a larger bonus of one run makes FzfV2 give up a better one | `abb` in `ab_abb_`: History 80, Default 74 |
| C91 | the same | Default: `abb` in `/ab_abb_` 80, in ` ab_abb_` 74; Path: `bcba` in `b  /c  cAcdBbb_ /d/CBa ` 84, with slashes for the spaces 68 |

## Per-property plan

| Property | What is modelled, how it is proved |
| --- | --- |
| C01, C02 | `fuzzy` of V1/V2 with `find_first_*`; forward pass succeeds iff `Subseq`; induction on the pattern |
| C03 | corollary of C01, C02 and shared `Fzf::score` |
| C04 | `exact_match` outer loop invariant: no occurrence starts before `start_offset` unless recorded |
| C05-C07 | `prefix_match`/`suffix_match`/`equal_match` = list equations on trimmed candidates |
| C08 | `Fzf::score`; false for one shape of query, proved for all others |
| C09-C11 | induction over conditions in `Fzf::distance` |
| C12 | relational proof: the `RANGES` flag only influences the ranges component |
| C13, C15, C16 | invariant of `MatchedRanges` under `insert`, lifted through every matcher |
| C14 | false for several conditions; proved for one; `C14_leftover` says exactly what is left in the buffer |
| C17, C21, C22 | V1 passes as greedy alignments; `compute_score` inserts exactly the greedy alignment |
| C18 | false; proved as long as scores stay positive (in particular for short candidates); always, for the last character highlighted |
| C19 | occurrence returned by each matcher, converted to bytes |
| C20 | false; soundness, and the union for the cases in which nothing is lost |
| C23 | maximum over the match list, induction |
| C24, C48 | false; proved for alignments that skip no match, and with a margin for all |
| C25, C26 | counting argument words/patterns vs. bytes; `C26_panics_iff` says exactly when `parse_not_extended` panics |
| C27 | by refinement: each model function equals `Res.ok` of a pure function |
| C28, C29 | pure functions do not mention the slabs |
| C30-C33 | recursive spec of the tokenizer, grouping and sigil rules, and declarative characterisations; round trip |
| C34-C37 | relations on the character comparison lifted through match decisions |
| C38 | general lemma on `linearize_batch` for sorted tables + kernel check of the tables against the specified ones, which are grouped by letter (`Spec.variants`; the letters were taken from the Unicode names of the characters) |
| C39 | both representations refine to the same pure function of the character list |
| C40, C41 | case analysis |
| C42 | induction over the DP recurrence; agreement of the model with the checked model |
| C43-C45 | closure properties of subsequence/substring |
| C46 | false; proved for two-character patterns and for candidates in which no two adjacent characters match the pattern's first |
| C47 | the non-fuzzy branches of `Fzf::score` do not depend on the metric |
| C49 | invariants over sequences of API calls |
| C50 | `SpecV2.lean` states the table in candidate positions; the model's slab rows are shifted slices of it |
| C51 | false; every cell is bounded by the documented score of an alignment of a part of the query, plus 2 per row |
| C52 | invariant of the `'outer` loop of `exact_match`, with the class it holds at every restart |
| C53 | the pure insertion function; which bytes of a new range it covers |
| C54 | as C34; a query character that is not listed compares with normalization as with the replaced character |
| C55 | false; kernel check of all pairs of case forms that are both listed, then C54 |
| C56 | false; lower bounds of C42 summed over the conditions |
| C57 | `SpecOutcome.lean` collects what C10, C17–C23, C50, C52 and C53 say into one relation; both directions, so nothing the API returns is left open |
| C58 | any alignment is pushed to the right, but for its end, until it skips no match; row by row, the table's cells on the pushed alignment fall behind the alignment by a bounded amount. FzfV1's alignment cannot be pushed at its start, which gives C24's margin |
| C24, C51, C58 (margins) | two families of candidates for a query of distinct letters, on which the whole table is known well enough: ` a b c a b c`, where every gap of the second round costs 1 instead of 3, and ` abbbbbb cccccc `, where the gap after every skipped repetition costs 3 again |
| C59 | upper bounds as C42 with the scheme's largest bonus; the diagonal of a block attains them |
| C60 | FzfV1's greedy passes do not look beyond the end of the match; FzfV2's tables of both candidates agree except for the penalty after the last match of a row, and run bonuses that this changes; a run that only one of them gives up has already won 1 |
| C61 | the sum over the conditions is commutative |
| C62 | simulation of `Model/Memory.lean` by `Model/Parser.lean`: what a reference made during the call reads is the value, because the words and patterns already made are below the bump pointers; between calls, parsers own distinct allocations |
| C63 | the matchers change no field of the metric but the tables of FzfV2, so that the candidate's buffer still begins with the candidate whenever it is read; with C62 and C57 |
| C64 | the greedy passes skip text without matches; FzfV2's window, and with it the tables, are the same up to an offset; so are the classes by which the exact search goes wherever the word occurs |
| C65 | each `alloc` returns the larger of both lengths; the loops write cells and never change a length |
| C66 | the settings are an invariant of call histories; the printed words are a prefix code |
| C67 | quoting is a prefix code (a left inverse of escaping), so that texts can be read back; false when a lone word contains quotes |
| C68 | every cell is padded to the width of the widest; false for ranges |
| C69 | steps are counted by a copy of the model; each loop consumes the candidate; false for exact patterns |
| C70 | the sum over all patterns of the matrix, the two passes over it and the traceback; from below, the two matrices are cleared |
| C71 | a non-match is decided before the bonuses and the matrix are touched; false for exact patterns and for several conditions |
| C72 | every round of the loops consumes bytes of the string, and every step is paid for by one of them |
| C73 | composition of C25, C27, C16 along the loop, with the slices in the buffer as invariant |
| C74 | the calls of one metric return what those of a new one do; a stable sort is determined by its order and the sublists of equal keys |
| C75 | the pieces of a string and of its extension differ in the last piece; each kind of pattern is monotone in its text; false for negations and alternatives |
| C76 | what has been handed out is below the bump pointers, what is written is above; a parser's buffers are its own; the text of a pattern is part of its word |
| C77 | kernel evaluation of the two programs; otherwise allocations only get longer and every reference is checked when it is made |
| C78 | simulation of the bounded code by the main model, function by function: sums of offsets are at most twice the largest length of a string; a product that wraps around gives a matrix that is too short, and the next slice of a row panics before anything is returned |
| C79 | the same simulation, with room for what is allocated: for the bytes of a candidate that is not ASCII, and for the matrices of the fuzzy patterns that are tried, from the first occurrence of the first character to the last of the last; both are needed. False for FzfV2's matrices |
| C80 | a word for each pattern by cases on its kind; the pieces of a string are determined by it (C30); the converse from the decomposition of words (C32) |
| C81 | histories of calls have steps for calls that panic, after which the buffers hold anything but are not shorter; results do not depend on what is in the buffers |
| C82 | a relation between two runs, from metrics with other buffers, kept by every function: what is read has been written in the same call |
| C83 | C82 and C65: the second iteration makes nothing longer, and every other one is as the second |
| C84 | false by kernel evaluation; without fuzzy patterns the two metrics run the same code |
| C85 | a fuzzy match highlights its best cell (V2) or its alignment (V1), a match of another kind its block |
| C86 | the run with ranges and the one without side by side; the former takes the same steps and those of the insertions |
| C87 | the first matching alternative is the same; false by kernel evaluation for a lone negated fuzzy word |
| C88 | inserting a range has no effect iff it is covered, by induction on the insertion; false by kernel evaluation for blocks that are cut |
| C89 | scores of alignments grow with the bonuses; for FzfV2 the two tables cell by cell: the difference grows by at most 7 a row, because a run is only given up for something better; false by kernel evaluation |
| C90 | what each search chooses is characterised by alignments, hits and bonuses; the table reads bonuses only at hits and at the starts of runs, which are hits |
| C91 | C90 for History; otherwise the bonuses where something matches are all at least as large, and the comparison of tables of C89; false by kernel evaluation |
| C92 | the prefix is the first occurrence and the leftmost alignment; a word that starts a candidate (or follows spaces) has a bonus of at least 8, at which the exact search stops, unless it starts with a number, for which no bonus is larger; in V2 the cells of the leftmost alignment hold its score |
| C93 | all definitions of the specification (alignments, occurrences, the grid, blocks, bonuses, words, tokens) commute with a map of characters that keeps comparisons, classes, spaces and sizes; an exchange of letters and digits keeps them |
| C94 | the same with the identity as the map and two classifications |
| C95 | the same with the identity as the map and two settings; a block's place depends on spaces only |
| C96 | the search in the model panics unless starts strictly increase; the answer is unique then, and an invariant of the loop |
| C97 | an insertion adds at most one range; the traceback goes up a row with every character |
| C98 | every search finds the same at a shifted place; inserting shifted ranges gives the shifted ranges |
