#!/usr/bin/env python3
"""Replays the assertions of /repo/tests/fzf_common.rs (upstream fzf's own test-suite) as kernel-checked
examples about the model.  Writes lean/Verif/Tests/Upstream.lean."""
import re
src = open('/repo/tests/fzf_common.rs').read()
env = {'bonus::MATCH': 16, 'bonus::CAMEL_123': 7, 'bonus::CONSECUTIVE': 4, 'bonus::BOUNDARY': 8,
       'bonus::NON_WORD': 8, 'bonus::FIRST_QUERY_CHAR_MULTIPLIER': 2, 'penalty::GAP_START': 3,
       'penalty::GAP_EXTENSION': 1, 'fzf.scheme().bonus_boundary_white': 10,
       'fzf.scheme().bonus_boundary_delimiter': 9}
out = ['''import Verif.Tests.Harness

/-! Replay of `/repo/tests/fzf_common.rs` on both metrics. Generated by `tools/mktests.py`. These are
sanity checks of the transcription (tests, not proofs of properties). -/

namespace Norm.Tests
''']
n = 0
for m in re.finditer(r'pub fn (upstream_\w+)<F: Fzf>\(\) \{(.*?)\n\}\n', src, re.S):
    name, body = m.groups()
    cs, q, c = re.search(r'fzf::<F>\((\w+), ("(?:[^"\\]|\\.)*"), ("(?:[^"\\]|\\.)*")\)', body).groups()
    if 'is_none()' in body:
        exp = 'none'; rs = None
    else:
        e = re.search(r'into_score\(\),(.*?)\n?\s*\);', body, re.S).group(1).strip().rstrip(',')
        e = e.replace('bonus::CAMEL_123.max(fzf.scheme().bonus_boundary_white)', '10')
        for k in sorted(env, key=len, reverse=True):
            e = e.replace(k, str(env[k]))
        e = ' '.join(e.split())
        assert re.fullmatch(r'[0-9+*() -]+', e), e
        exp = 'some (%s)' % e
        r = re.search(r'matched_ranges, \[(.*?)\]', body)
        rs = '[' + ', '.join('(%s, %s)' % tuple(x.strip().split('..')) for x in r.group(1).split(',')) + ']' if r else '[]'
    for v in ('v1', 'v2'):
        n += 1
        if rs is None:
            out.append(f'example : (run_{v} .{cs.lower()} false {q} {c}).mapR (·.2) = .ok none := by decide +kernel')
        else:
            out.append(f'example : run_{v} .{cs.lower()} false {q} {c} = .ok ({rs}, {exp}) := by decide +kernel')
out.append('\nend Norm.Tests')
open('/verif/lean/Verif/Tests/Upstream.lean', 'w').write('\n'.join(out) + '\n')
print(n)
