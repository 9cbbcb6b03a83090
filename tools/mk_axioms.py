#!/usr/bin/env python3
"""Write AXIOMS.md: the axioms of every theorem named in MANIFEST.json (`#print axioms`)."""
import json, re, subprocess, os
root = os.path.dirname(os.path.dirname(os.path.abspath(__file__)))
ths = [t for c in json.load(open(root + '/MANIFEST.json'))['claims'] for t in c['theorems']]
src = '/tmp/mk_axioms.lean'
open(src, 'w').write('import Verif\n' + ''.join(f'#print axioms {t}\n' for t in ths))
out = subprocess.run(['le', src], capture_output=True, text=True).stdout
out = re.sub(r'\n\s+', ' ', out)
rows = []
for l in out.splitlines():
    m = re.match(r"(?:.*info: )?'(.*)' (?:depends on axioms: \[(.*)\]|does not depend)", l)
    if m:
        rows.append((m[1], m[2] or 'none'))
assert len(rows) == len(ths), (len(rows), len(ths))
with open(root + '/AXIOMS.md', 'w') as f:
    f.write('# Axioms per theorem\n\n| theorem | axioms |\n|---|---|\n')
    for a, b in rows:
        f.write(f'| `{a}` | {b} |\n')
print(len(rows), sorted({b for _, b in rows}))
