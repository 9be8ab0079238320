import Verif.Tests.Harness

/-! Replay of the remaining tests of the repository (unit tests and `/repo/tests/fzf_v1.rs`, `fzf_v2.rs`).
These are sanity checks of the transcription (tests, not proofs of properties). -/

namespace Norm.Tests

-- `/repo/src/matched_ranges.rs:243-351`
example : inserts [(0,1), (0,2), (0,3)] = .ok [(0,3)] := by decide +kernel
example : inserts [(0,1), (0,2), (0,3), (0,2)] = .ok [(0,3)] := by decide +kernel
example : inserts [(0,1), (1,2), (2,3)] = .ok [(0,3)] := by decide +kernel
example : inserts [(2,3), (1,2), (0,1)] = .ok [(0,3)] := by decide +kernel
example : inserts [(0,1), (2,3)] = .ok [(0,1), (2,3)] := by decide +kernel
example : inserts [(0,1), (2,3), (1,2)] = .ok [(0,3)] := by decide +kernel
example : inserts [(0,2), (4,6), (1,3)] = .ok [(0,3), (4,6)] := by decide +kernel
example : inserts [(0,2), (4,6), (3,5)] = .ok [(0,2), (3,6)] := by decide +kernel
example : inserts [(0,4), (6,8), (10,14)] = .ok [(0,4), (6,8), (10,14)] := by decide +kernel
example : inserts [(3,8), (4,7), (5,6)] = .ok [(3,8)] := by decide +kernel
example : inserts [(1,2), (3,8), (4,7), (5,6)] = .ok [(1,2), (3,8)] := by decide +kernel
example : inserts [(10,11), (3,8), (4,7), (5,6)] = .ok [(3,8), (10,11)] := by decide +kernel
example : inserts [(1,2), (10,11), (3,8), (4,7), (5,6)] = .ok [(1,2), (3,8), (10,11)] := by decide +kernel

-- `/repo/src/metrics/fzf/query.rs:317-372`
example : pat "'" = .ok none := by decide +kernel
example : pat "^" = .ok none := by decide +kernel
example : pat "!" = .ok none := by decide +kernel
example : pat "$" = .ok (some ("$", .fuzzy, false)) := by decide +kernel
example : pat "!'" = .ok none := by decide +kernel
example : pat "!^" = .ok none := by decide +kernel
example : pat "'$" = .ok none := by decide +kernel
example : pat "^$" = .ok none := by decide +kernel
example : pat "'^" = .ok (some ("^", .exact, false)) := by decide +kernel
example : pat "!$" = .ok (some ("$", .exact, true)) := by decide +kernel
example : pat "!!" = .ok (some ("!", .exact, true)) := by decide +kernel
example : pat "$$" = .ok (some ("$", .suffixExact, false)) := by decide +kernel
example : pat "!^$" = .ok none := by decide +kernel
example : pat "'^$" = .ok (some ("^", .exact, false)) := by decide +kernel
example : pat "'!$" = .ok (some ("!", .exact, false)) := by decide +kernel
example : pat "'^$$" = .ok (some ("^$", .exact, false)) := by decide +kernel

-- `/repo/src/metrics/fzf/parser.rs:411-493`
example : (parse "").mapR FzfQuery.isEmpty = .ok true := by decide +kernel
example : (parse "aaa 'bbb ^ccc ddd$ !eee !'fff !^ggg !hhh$ | ^iii$ ^xxx | 'yyy | zzz$ | !ZZZ |").mapR
    (fun | .extended cs => cs.map (·.map (fun p => (p.matchType, p.isInverse))) | _ => []) =
    .ok [[(.fuzzy, false)], [(.exact, false)], [(.prefixExact, false)], [(.suffixExact, false)],
      [(.exact, true)], [(.fuzzy, true)], [(.prefixExact, true)],
      [(.suffixExact, true), (.equalExact, false)],
      [(.prefixExact, false), (.exact, false), (.suffixExact, false), (.exact, true)]] := by
  decide +kernel

-- `/repo/src/metrics/fzf/parser.rs:512-561`
example : blocks "" = .ok [] := by decide +kernel
example : blocks "foo" = .ok [["foo"]] := by decide +kernel
example : blocks "foo | bar | baz" = .ok [["foo", "bar", "baz"]] := by decide +kernel
example : blocks "foo bar baz" = .ok [["foo"], ["bar"], ["baz"]] := by decide +kernel
example : blocks "foo | | bar" = .ok [["foo", "bar"]] := by decide +kernel
example : blocks "foo | bar baz qux | quux | corge" =
    .ok [["foo", "bar"], ["baz"], ["qux", "quux", "corge"]] := by decide +kernel

-- `/repo/src/metrics/fzf/parser.rs:286-309,581-646`
example : words "foo 'bar' \"baz\"" = .ok ["foo", "'bar'", "\"baz\""] := by decide +kernel
example : words "foo\\ bar baz" = .ok ["foo bar", "baz"] := by decide +kernel
example : words "foo \\ bar" = .ok ["foo", " bar"] := by decide +kernel
example : words "" = .ok [] := by decide +kernel
example : words "foo" = .ok ["foo"] := by decide +kernel
example : words "\\\\ " = .ok ["\\ "] := by decide +kernel
example : words "foo bar" = .ok ["foo", "bar"] := by decide +kernel
example : words "   foo bar   " = .ok ["foo", "bar"] := by decide +kernel
example : words "foo\\ bar\\ baz" = .ok ["foo bar baz"] := by decide +kernel
example : words " \\  foo \\ bar \\  " = .ok [" ", "foo", " bar", " "] := by decide +kernel
example : words "\\ " = .ok [" "] := by decide +kernel
example : words " \\ \\ \\  " = .ok ["   "] := by decide +kernel

-- `/repo/src/metrics/fzf/fzf.rs:599-694` (called directly on `exact_match`)
example : run_v1 .sensitive false "'abc" "aabbcc abc" = .ok ([(7,10)], some 88) := by decide +kernel

-- `/repo/src/metrics/fzf/parser.rs:150-169`
example : ((FzfParser.new.parseNotExtended U "^bar | baz$".toList).bind (fun q =>
    (FzfV2.new.distanceAndRanges U q.2 "^foo bar | baz $ foo".toList []).mapR
      (fun r => r.2.1.map (fun r => (r.start, r.stop))))) = .ok [(0,1), (5,14), (15,16)] := by
  decide +kernel

-- `/repo/tests/fzf_v1.rs:219-321`
example : (run_v1 .sensitive false "ZZ" "ӥZZZ").mapR (·.1) = .ok [(2,4)] := by decide +kernel
example : (run_v1 .sensitive false "^\\$ ]]%]]'\x00\x00\x00\x00\x00\x00" "\x00").mapR (·.2) = .ok none := by
  decide +kernel
example : (run_v1 .sensitive false "^\\$" " ").mapR (·.2) = .ok none := by decide +kernel
example : (run_v1 .insensitive false "z\n"
    "ZZ\x00\x00\x00\x00\x00\x00\x00\x00\x00\x00\x00\x00\x00\x00\x00\x00\x00ٞ\nZٞ").mapR (·.1) =
    .ok [(1,2), (21,22)] := by decide +kernel
example : (run_v1 .sensitive true "e !" " !I\\hh+ͤ").mapR (·.1) = .ok [(7,9)] := by decide +kernel
example : (run_v1 .insensitive true "^e" "ͤ").mapR (·.1) = .ok [(0,2)] := by decide +kernel

-- `/repo/tests/fzf_v2.rs:218-333`
example : run_v2 .sensitive false "jelly" "jellyfish" = .ok ([(0,5)], some (16 * 5 + 10 * 2 + 10 * 4)) := by
  decide +kernel
example : (run_v2 .sensitive false "!$" "$$2").mapR (·.2) = .ok none := by decide +kernel
example : (run_v2 .sensitive false "\x00\x00" "\x00#B\x00ͤ\x00\x00").mapR (·.1) = .ok [(6,8)] := by
  decide +kernel
example : (run_v2 .sensitive true "e !" " !I\\hh+ͤ").mapR (·.1) = .ok [(7,9)] := by decide +kernel
example : (run_v2 .insensitive true "E" "ͤE").mapR (·.1) = .ok [(0,2)] := by decide +kernel
example : (run_v2 .insensitive true "!2\t\x00\x00\x00WWHHWHWWWWWWWZ !I"
    "\x06\x00\x00 Nͤ\x0eͥ+").mapR (·.2) = .ok none := by decide +kernel

-- doc tests: `/repo/src/metric.rs:65-123`, `/repo/src/metrics/fzf/fzf_v1.rs:22-54`, `fzf_v2.rs:23-49`
example : (run_v1 .smart false "foo" "bar") = .ok ([], none) := by decide +kernel
example : (run_v1 .smart false "foo" "seafood").mapR (·.1) = .ok [(3,6)] := by decide +kernel
example : (run_v1 .smart false "foo" "fancy igloo").mapR (·.1) = .ok [(0,1), (9,11)] := by decide +kernel
example : (run_v1 .smart true "foo" "ƒöö").mapR (·.1) = .ok [(0,6)] := by decide +kernel
example : (run_v1 .smart false "foo" "ƒöö").mapR (·.2) = .ok none := by decide +kernel
example : (run_v1 .smart true "ƒöö" "foo").mapR (·.2) = .ok none := by decide +kernel
example : (run_v1 .smart false "abc" "a_b_abcd").mapR (·.1) = .ok [(4,7)] := by decide +kernel
example : (run_v1 .smart false "foo" "f_o_o_foo").mapR (·.1) = .ok [(0,1), (2,3), (4,5)] := by decide +kernel
example : (run_v2 .smart false "foo" "f_o_o_foo").mapR (·.1) = .ok [(6,9)] := by decide +kernel
example : (run_v1 .smart false "abc" "ABC").mapR (·.2.isSome) = .ok true := by decide +kernel
example : (run_v1 .sensitive false "abc" "ABC").mapR (·.2.isSome) = .ok false := by decide +kernel

end Norm.Tests
