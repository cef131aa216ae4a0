#!/usr/bin/env python3
"""Regenerate lean/Verif.lean and MANIFEST.json from the sources.

Theorems are attached to the property whose identifier starts their name (`C02_...`).
Statuses and notes come from scripts/status.json; a property without theorem is
`not_applicable` only if status.json says so, otherwise it is left out.
"""
import json
import pathlib
import re

root = pathlib.Path(__file__).resolve().parent.parent
lean = root / 'lean'
mods = sorted(p.relative_to(lean).with_suffix('').as_posix().replace('/', '.')
              for p in (lean / 'Verif').rglob('*.lean'))
(lean / 'Verif.lean').write_text(''.join('import %s\n' % m for m in mods))
status = json.loads((root / 'scripts' / 'status.json').read_text())
thms = {}
for p in sorted((lean / 'Verif').rglob('*.lean')):
    ns = []
    for line in p.read_text().splitlines():
        m = re.match(r'namespace (\S+)', line)
        if m:
            ns.append(m.group(1))
        m = re.match(r'end (\S+)', line)
        if m and ns and ns[-1] == m.group(1):
            ns.pop()
        m = re.match(r'(?:@\[[^\]]*\] )?theorem ((C\d\d+)_\S+)', line)
        if m:
            thms.setdefault(m.group(2), []).append('.'.join(ns + [m.group(1)]))
claims = []
for line in (root / 'properties.jsonl').read_text().splitlines():
    if not line.strip():
        continue
    pid = json.loads(line)['id']
    st = status.get(pid, {})
    th = thms.get(pid, [])
    if not th and st.get('status') != 'not_applicable':
        print('no theorem for', pid)
        continue
    s = st.get('status', 'partial' if all(t.endswith('_partial') for t in th) else 'proved')
    claims.append({'property': pid, 'status': s, 'theorems': th, 'note': st.get('note', '')})
(root / 'MANIFEST.json').write_text(
    '{"claims": [\n' + ',\n'.join(' ' + json.dumps(c, ensure_ascii=False) for c in claims)
    + '\n]}\n')
