import Verif.Tests.Harness

/-! Replay of `/repo/tests/fzf_common.rs` on both metrics. Generated by `tools/mktests.py`. These are
sanity checks of the transcription (tests, not proofs of properties). -/

namespace Norm.Tests

example : run_v1 .insensitive false "" "foo" = .ok ([], some (0)) := by decide +kernel
example : run_v2 .insensitive false "" "foo" = .ok ([], some (0)) := by decide +kernel
example : run_v1 .insensitive false "oBZ" "fooBarbaz1" = .ok ([(2, 4), (8, 9)], some (3 * 16 + 7 - 3 - 3 * 1)) := by decide +kernel
example : run_v2 .insensitive false "oBZ" "fooBarbaz1" = .ok ([(2, 4), (8, 9)], some (3 * 16 + 7 - 3 - 3 * 1)) := by decide +kernel
example : run_v1 .insensitive false "fbb" "foo bar baz" = .ok ([(0, 1), (4, 5), (8, 9)], some (3 * 16 + (2 + 2) * 10 - 2 * 3 - 4 * 1)) := by decide +kernel
example : run_v2 .insensitive false "fbb" "foo bar baz" = .ok ([(0, 1), (4, 5), (8, 9)], some (3 * 16 + (2 + 2) * 10 - 2 * 3 - 4 * 1)) := by decide +kernel
example : run_v1 .insensitive false "rdoc" "/AutomatorDocument.icns" = .ok ([(9, 13)], some (4 * 16 + 2 * 4 + 7)) := by decide +kernel
example : run_v2 .insensitive false "rdoc" "/AutomatorDocument.icns" = .ok ([(9, 13)], some (4 * 16 + 2 * 4 + 7)) := by decide +kernel
example : run_v1 .insensitive false "zshc" "/man1/zshcompctl.1" = .ok ([(6, 10)], some (4 * 16 + (2 + 3) * 9)) := by decide +kernel
example : run_v2 .insensitive false "zshc" "/man1/zshcompctl.1" = .ok ([(6, 10)], some (4 * 16 + (2 + 3) * 9)) := by decide +kernel
example : run_v1 .insensitive false "zshc" "/.oh-my-zsh/cache" = .ok ([(8, 11), (12, 13)], some (4 * 16 + (2 + 2) * 8 + 9 - 3)) := by decide +kernel
example : run_v2 .insensitive false "zshc" "/.oh-my-zsh/cache" = .ok ([(8, 11), (12, 13)], some (4 * 16 + (2 + 2) * 8 + 9 - 3)) := by decide +kernel
example : run_v1 .insensitive false "12356" "ab0123 456" = .ok ([(3, 6), (8, 10)], some (5 * 16 + 3 * 4 - 3 - 1)) := by decide +kernel
example : run_v2 .insensitive false "12356" "ab0123 456" = .ok ([(3, 6), (8, 10)], some (5 * 16 + 3 * 4 - 3 - 1)) := by decide +kernel
example : run_v1 .insensitive false "12356" "abc123 456" = .ok ([(3, 6), (8, 10)], some (5 * 16 + (2 + 2) * 7 + 4 - 3 - 1)) := by decide +kernel
example : run_v2 .insensitive false "12356" "abc123 456" = .ok ([(3, 6), (8, 10)], some (5 * 16 + (2 + 2) * 7 + 4 - 3 - 1)) := by decide +kernel
example : run_v1 .insensitive false "fbb" "foo/bar/baz" = .ok ([(0, 1), (4, 5), (8, 9)], some (3 * 16 + 2 * 10 + 2 * 9 - 2 * 3 - 4 * 1)) := by decide +kernel
example : run_v2 .insensitive false "fbb" "foo/bar/baz" = .ok ([(0, 1), (4, 5), (8, 9)], some (3 * 16 + 2 * 10 + 2 * 9 - 2 * 3 - 4 * 1)) := by decide +kernel
example : run_v1 .insensitive false "fbb" "fooBarBaz" = .ok ([(0, 1), (3, 4), (6, 7)], some (3 * 16 + 2 * 10 + 2 * 7 - 2 * 3 - 2 * 1)) := by decide +kernel
example : run_v2 .insensitive false "fbb" "fooBarBaz" = .ok ([(0, 1), (3, 4), (6, 7)], some (3 * 16 + 2 * 10 + 2 * 7 - 2 * 3 - 2 * 1)) := by decide +kernel
example : run_v1 .insensitive false "fbb" "foo barbaz" = .ok ([(0, 1), (4, 5), (7, 8)], some (3 * 16 + (2 + 1) * 10 - 2 * 3 - 3 * 1)) := by decide +kernel
example : run_v2 .insensitive false "fbb" "foo barbaz" = .ok ([(0, 1), (4, 5), (7, 8)], some (3 * 16 + (2 + 1) * 10 - 2 * 3 - 3 * 1)) := by decide +kernel
example : run_v1 .insensitive false "foob" "fooBar Baz" = .ok ([(0, 4)], some (4 * 16 + (2 + 3) * 10)) := by decide +kernel
example : run_v2 .insensitive false "foob" "fooBar Baz" = .ok ([(0, 4)], some (4 * 16 + (2 + 3) * 10)) := by decide +kernel
example : run_v1 .insensitive false "foo-b" "xFoo-Bar Baz" = .ok ([(1, 6)], some (5 * 16 + (2 + 2) * 7 + 8 + 8)) := by decide +kernel
example : run_v2 .insensitive false "foo-b" "xFoo-Bar Baz" = .ok ([(1, 6)], some (5 * 16 + (2 + 2) * 7 + 8 + 8)) := by decide +kernel
example : run_v1 .sensitive false "oBz" "fooBarbaz" = .ok ([(2, 4), (8, 9)], some (3 * 16 + 7 - 3 - 3 * 1)) := by decide +kernel
example : run_v2 .sensitive false "oBz" "fooBarbaz" = .ok ([(2, 4), (8, 9)], some (3 * 16 + 7 - 3 - 3 * 1)) := by decide +kernel
example : run_v1 .sensitive false "FBB" "Foo/Bar/Baz" = .ok ([(0, 1), (4, 5), (8, 9)], some (3 * 16 + 2 * 10 + 2 * 9 - 2 * 3 - 4 * 1)) := by decide +kernel
example : run_v2 .sensitive false "FBB" "Foo/Bar/Baz" = .ok ([(0, 1), (4, 5), (8, 9)], some (3 * 16 + 2 * 10 + 2 * 9 - 2 * 3 - 4 * 1)) := by decide +kernel
example : run_v1 .sensitive false "FBB" "FooBarBaz" = .ok ([(0, 1), (3, 4), (6, 7)], some (3 * 16 + 2 * 10 + 2 * 7 - 2 * 3 - 2 * 1)) := by decide +kernel
example : run_v2 .sensitive false "FBB" "FooBarBaz" = .ok ([(0, 1), (3, 4), (6, 7)], some (3 * 16 + 2 * 10 + 2 * 7 - 2 * 3 - 2 * 1)) := by decide +kernel
example : run_v1 .sensitive false "FooB" "FooBar Baz" = .ok ([(0, 4)], some (4 * 16 + (2 + 2) * 10 + 10)) := by decide +kernel
example : run_v2 .sensitive false "FooB" "FooBar Baz" = .ok ([(0, 4)], some (4 * 16 + (2 + 2) * 10 + 10)) := by decide +kernel
example : run_v1 .sensitive false "o-ba" "foo-bar" = .ok ([(2, 6)], some (4 * 16 + 3 * 8)) := by decide +kernel
example : run_v2 .sensitive false "o-ba" "foo-bar" = .ok ([(2, 6)], some (4 * 16 + 3 * 8)) := by decide +kernel
example : (run_v1 .sensitive false "oBZ" "fooBarbaz").mapR (·.2) = .ok none := by decide +kernel
example : (run_v2 .sensitive false "oBZ" "fooBarbaz").mapR (·.2) = .ok none := by decide +kernel
example : (run_v1 .sensitive false "fbb" "Foo Bar Baz").mapR (·.2) = .ok none := by decide +kernel
example : (run_v2 .sensitive false "fbb" "Foo Bar Baz").mapR (·.2) = .ok none := by decide +kernel
example : (run_v1 .sensitive false "fooBarbazz" "fooBarbaz").mapR (·.2) = .ok none := by decide +kernel
example : (run_v2 .sensitive false "fooBarbazz" "fooBarbaz").mapR (·.2) = .ok none := by decide +kernel
example : (run_v1 .sensitive false "'oBA" "fooBarbaz").mapR (·.2) = .ok none := by decide +kernel
example : (run_v2 .sensitive false "'oBA" "fooBarbaz").mapR (·.2) = .ok none := by decide +kernel
example : (run_v1 .sensitive false "'fooBarbazz" "fooBarbaz").mapR (·.2) = .ok none := by decide +kernel
example : (run_v2 .sensitive false "'fooBarbazz" "fooBarbaz").mapR (·.2) = .ok none := by decide +kernel
example : run_v1 .insensitive false "'oBA" "fooBarbaz" = .ok ([(2, 5)], some (3 * 16 + 7 + 4)) := by decide +kernel
example : run_v2 .insensitive false "'oBA" "fooBarbaz" = .ok ([(2, 5)], some (3 * 16 + 7 + 4)) := by decide +kernel
example : run_v1 .insensitive false "'rdoc" "/AutomatorDocument.icns" = .ok ([(9, 13)], some (4 * 16 + 7 + 2 * 4)) := by decide +kernel
example : run_v2 .insensitive false "'rdoc" "/AutomatorDocument.icns" = .ok ([(9, 13)], some (4 * 16 + 7 + 2 * 4)) := by decide +kernel
example : run_v1 .insensitive false "'zshc" "/man1/zshcompctl.1" = .ok ([(6, 10)], some (4 * 16 + (2 + 3) * 9)) := by decide +kernel
example : run_v2 .insensitive false "'zshc" "/man1/zshcompctl.1" = .ok ([(6, 10)], some (4 * 16 + (2 + 3) * 9)) := by decide +kernel
example : run_v1 .insensitive false "'zsh/c" "/.oh-my-zsh/cache" = .ok ([(8, 13)], some (5 * 16 + (2 + 3) * 8 + 9)) := by decide +kernel
example : run_v2 .insensitive false "'zsh/c" "/.oh-my-zsh/cache" = .ok ([(8, 13)], some (5 * 16 + (2 + 3) * 8 + 9)) := by decide +kernel
example : run_v1 .insensitive false "'oo" "foobar foo" = .ok ([(1, 3)], some (2 * 16 + 4)) := by decide +kernel
example : run_v2 .insensitive false "'oo" "foobar foo" = .ok ([(1, 3)], some (2 * 16 + 4)) := by decide +kernel
example : (run_v1 .sensitive false "^Foo" "fooBarbaz").mapR (·.2) = .ok none := by decide +kernel
example : (run_v2 .sensitive false "^Foo" "fooBarbaz").mapR (·.2) = .ok none := by decide +kernel
example : (run_v1 .sensitive false "^baz" "fooBarBaz").mapR (·.2) = .ok none := by decide +kernel
example : (run_v2 .sensitive false "^baz" "fooBarBaz").mapR (·.2) = .ok none := by decide +kernel
example : run_v1 .insensitive false "^Foo" "fooBarbaz" = .ok ([(0, 3)], some (3 * 16 + (2 + 2) * 10)) := by decide +kernel
example : run_v2 .insensitive false "^Foo" "fooBarbaz" = .ok ([(0, 3)], some (3 * 16 + (2 + 2) * 10)) := by decide +kernel
example : run_v1 .insensitive false "^foo" "foOBarBaZ" = .ok ([(0, 3)], some (3 * 16 + (2 + 2) * 10)) := by decide +kernel
example : run_v2 .insensitive false "^foo" "foOBarBaZ" = .ok ([(0, 3)], some (3 * 16 + (2 + 2) * 10)) := by decide +kernel
example : run_v1 .insensitive false "^f-o" "f-oBarbaz" = .ok ([(0, 3)], some (3 * 16 + (2 + 2) * 10)) := by decide +kernel
example : run_v2 .insensitive false "^f-o" "f-oBarbaz" = .ok ([(0, 3)], some (3 * 16 + (2 + 2) * 10)) := by decide +kernel
example : run_v1 .insensitive false "^foo" " fooBar" = .ok ([(1, 4)], some (3 * 16 + (2 + 2) * 10)) := by decide +kernel
example : run_v2 .insensitive false "^foo" " fooBar" = .ok ([(1, 4)], some (3 * 16 + (2 + 2) * 10)) := by decide +kernel
example : run_v1 .insensitive false "\\ fo" " fooBar" = .ok ([(0, 3)], some (3 * 16 + (2 + 2) * 10)) := by decide +kernel
example : run_v2 .insensitive false "\\ fo" " fooBar" = .ok ([(0, 3)], some (3 * 16 + (2 + 2) * 10)) := by decide +kernel
example : (run_v1 .insensitive false "^foo" "     fo").mapR (·.2) = .ok none := by decide +kernel
example : (run_v2 .insensitive false "^foo" "     fo").mapR (·.2) = .ok none := by decide +kernel
example : (run_v1 .sensitive false "Baz$" "fooBarbaz").mapR (·.2) = .ok none := by decide +kernel
example : (run_v2 .sensitive false "Baz$" "fooBarbaz").mapR (·.2) = .ok none := by decide +kernel
example : (run_v1 .insensitive false "Foo$" "fooBarBaz").mapR (·.2) = .ok none := by decide +kernel
example : (run_v2 .insensitive false "Foo$" "fooBarBaz").mapR (·.2) = .ok none := by decide +kernel
example : run_v1 .insensitive false "baz$" "fooBarbaz" = .ok ([(6, 9)], some (3 * 16 + 2 * 4)) := by decide +kernel
example : run_v2 .insensitive false "baz$" "fooBarbaz" = .ok ([(6, 9)], some (3 * 16 + 2 * 4)) := by decide +kernel
example : run_v1 .insensitive false "baz$" "fooBarBaZ" = .ok ([(6, 9)], some (3 * 16 + (2 + 2) * 7)) := by decide +kernel
example : run_v2 .insensitive false "baz$" "fooBarBaZ" = .ok ([(6, 9)], some (3 * 16 + (2 + 2) * 7)) := by decide +kernel
example : run_v1 .insensitive false "baz$" "fooBarbaz " = .ok ([(6, 9)], some (3 * 16 + 2 * 4)) := by decide +kernel
example : run_v2 .insensitive false "baz$" "fooBarbaz " = .ok ([(6, 9)], some (3 * 16 + 2 * 4)) := by decide +kernel
example : run_v1 .insensitive false "baz\\ $" "fooBarbaz " = .ok ([(6, 10)], some (4 * 16 + 2 * 4 + 10)) := by decide +kernel
example : run_v2 .insensitive false "baz\\ $" "fooBarbaz " = .ok ([(6, 10)], some (4 * 16 + 2 * 4 + 10)) := by decide +kernel

end Norm.Tests
