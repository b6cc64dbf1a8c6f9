#!/usr/bin/env python3
"""Print the axioms every theorem named in MANIFEST.json depends on into AXIOMS.txt."""
import json, re, subprocess, tempfile, os
root = os.path.dirname(os.path.dirname(os.path.abspath(__file__)))
claims = json.load(open(f'{root}/MANIFEST.json'))['claims']
names = []
for c in claims:
    for t in c['theorems']:
        if t not in names:
            names.append(t)
src = 'import Verif\nopen Gocfl\n' + ''.join(f'#print axioms {n}\n' for n in names)
with tempfile.NamedTemporaryFile('w', suffix='.lean', delete=False) as f:
    f.write(src)
out = subprocess.run(['lake', 'env', 'lean', f.name], cwd=f'{root}/lean', capture_output=True, text=True).stdout
os.unlink(f.name)
lines = []
for m in re.finditer(r"'([^']+)' (depends on axioms: \[[^\]]*\]|does not depend on any axioms)", out):
    ax = re.sub(r'\s+', ' ', m.group(2))
    lines.append(f'{m.group(1)}: {ax}')
    for a in re.findall(r'[\w.]+', ax.split('[')[1].rstrip(']')) if '[' in ax else []:
        assert a in ('propext', 'Classical.choice', 'Quot.sound'), (m.group(1), a)
assert len(lines) == len(names), (len(lines), len(names))
open(f'{root}/AXIOMS.txt', 'w').write('\n'.join(lines) + '\n')
print(len(lines), 'theorems')
