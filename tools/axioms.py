#!/usr/bin/env python3
"""Prints for each theorem of MANIFEST.json the axioms it depends on; the output is kept in AXIOMS.txt."""
import json, subprocess, tempfile, os, re
claims = json.load(open('/verif/MANIFEST.json'))['claims']
names = sorted({t for c in claims for t in c['theorems']})
with tempfile.NamedTemporaryFile('w', suffix='.lean', delete=False) as f:
    f.write('import Verif\n')
    for n in names:
        f.write('#print axioms %s\n' % n)
out = subprocess.run(['lake', 'env', 'lean', f.name], cwd='/verif/lean', capture_output=True, text=True).stdout
os.unlink(f.name)
out = re.sub(r'\n +', ' ', out)
lines = sorted(l for l in out.split('\n') if l.startswith("'"))
assert len(lines) == len(names), (len(lines), len(names))
open('/verif/AXIOMS.txt', 'w').write('\n'.join(lines) + '\n')
axioms = set(re.findall(r'[\w.]+', ' '.join(l.split('[')[1] for l in lines if '[' in l)))
print(len(lines), 'theorems; axioms used:', sorted(axioms))
