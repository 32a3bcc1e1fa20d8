#!/usr/bin/env python3
"""Rebuild /verif/MANIFEST.json from the property theorems (names C<nn>_...) and tools/notes.json.

A property is `proved` when none of its theorems is `_partial`/`_violated`, `partial` otherwise; notes.json may
override the status."""
import glob, json, re, os
root = os.path.dirname(os.path.dirname(os.path.abspath(__file__)))
props = [json.loads(l) for l in open(f'{root}/properties.jsonl') if l.strip()]
notes = json.load(open(f'{root}/tools/notes.json'))
thms = {}
for f in sorted(glob.glob(f'{root}/lean/Verif/Props/**/*.lean', recursive=True)):
    stack = []  # open namespaces and sections
    for l in open(f):
        if m := re.match(r'(namespace|section|noncomputable section|mutual)\b\s*(\S*)', l):
            stack.append(m.group(2) if m.group(1) == 'namespace' else None)
        elif re.match(r'end\b', l):
            stack.pop()
        elif m := re.match(r'(?:private |protected )?theorem ((C\d+)(?:_\w*)?)\b', l):
            thms.setdefault(m.group(2), []).append('.'.join([x for x in stack if x] + [m.group(1)]))
claims = []
for p in props:
    n = notes.get(p['id'], {})
    t = thms.get(p['id'], [])
    bad = any(x.endswith('_partial') or x.endswith('_violated') for x in t)
    status = n.get('status', 'partial' if (bad or not t) else 'proved')
    claims.append({'property': p['id'], 'status': status, 'theorems': t, 'note': n.get('note', 'not yet modelled' if not t else '')})
json.dump({'claims': claims}, open(f'{root}/MANIFEST.json', 'w'), indent=1)
print(len(claims), sum(c['status'] == 'proved' for c in claims), sum(not c['theorems'] for c in claims), 'without theorems')
ids = {p['id'] for p in props}
print('unknown ids', set(thms) - ids)
