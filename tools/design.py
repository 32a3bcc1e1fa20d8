"""Regenerates the section 'Per property' of DESIGN.md from properties.jsonl, MANIFEST.json and the Props files."""
import json, os, re
R = os.path.dirname(os.path.dirname(os.path.abspath(__file__)))
props = [json.loads(l) for l in open(R + '/properties.jsonl')]
man = {c['property']: c for c in json.load(open(R + '/MANIFEST.json'))['claims']}
where = {}
for d, _, fs in os.walk(R + '/lean/Verif/Props'):
    for f in fs:
        for t in re.findall(r'^(?:protected )?theorem (C\d+\w*)', open(d + '/' + f).read(), re.M):
            where.setdefault(t.split('_')[0], set()).add(f[:-5])
out = []
for p in props:
    c = man[p['id']]
    out.append(f"### {p['id']} {p['title']} ({c['status']})\n")
    out.append(f"* Files: {', '.join('`Props/%s`' % x for x in sorted(where.get(p['id'], [])))}")
    th = [t.split('.')[-1] for t in c['theorems']]
    good = [t for t in th if not t.endswith(('_violated', '_partial'))]
    part = [t for t in th if t.endswith('_partial')]
    bad = [t for t in th if t.endswith('_violated')]
    if good: out.append(f"* Proved: {', '.join('`%s`' % t for t in good)}")
    if part: out.append(f"* Proved in part: {', '.join('`%s`' % t for t in part)}")
    if bad: out.append(f"* Violated by the code: {', '.join('`%s`' % t for t in bad)}")
    out.append(f"* {c.get('note', '')}\n")
s = open(R + '/DESIGN.md').read()
a, b = '<!-- per property: begin (tools/design.py) -->', '<!-- per property: end -->'
i, j = s.index(a) + len(a), s.index(b)
open(R + '/DESIGN.md', 'w').write(s[:i] + '\n' + '\n'.join(out) + s[j:])
