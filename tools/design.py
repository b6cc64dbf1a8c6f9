"""Regenerates the table of properties in DESIGN.md from properties.jsonl and MANIFEST.json."""
import json, re
root = '/verif/'
m = {c['property']: c for c in json.load(open(root + 'MANIFEST.json'))['claims']}
rows = []
for l in open(root + 'properties.jsonl'):
    d = json.loads(l)
    c = m[d['id']]
    ths = ', '.join('`' + t.replace('Gocfl.', '') + '`' for t in c['theorems'][:4]) + (' …' if len(c['theorems']) > 4 else '')
    rows.append('| %s | %s | %s | %s |' % (d['id'], d['title'], c['status'], c['note'].replace('|', '\\|')))
s = open(root + 'DESIGN.md').read()
a, b = '<!-- table begin -->', '<!-- table end -->'
i, j = s.index(a) + len(a), s.index(b)
s = s[:i] + '\n| Property | Title | Status | Result |\n|---|---|---|---|\n' + '\n'.join(rows) + '\n' + s[j:]
open(root + 'DESIGN.md', 'w').write(s)
print(len(rows), 'rows')
