#!/usr/bin/env python3
"""Rewrite the axiom table at the end of DESIGN.md from `#print axioms` of every theorem in MANIFEST.json."""
import json, re, subprocess, os
root = os.path.dirname(os.path.dirname(os.path.abspath(__file__)))
claims = json.load(open(f'{root}/MANIFEST.json'))['claims']
names = [t for c in claims for t in c['theorems']]
src = 'import Verif\n' + ''.join(f'#print axioms {n}\n' for n in names)
open('/tmp/axioms.lean', 'w').write(src)
out = subprocess.run(['lake', 'env', 'lean', '/tmp/axioms.lean'], cwd=f'{root}/lean', capture_output=True, text=True).stdout
out = re.sub(r'\n\s+', ' ', out)
found = {}
for l in out.splitlines():
    m = re.match(r"'([^']+)' depends on axioms: \[(.*)\]", l)
    if m: found[m[1]] = m[2]
    m = re.match(r"'([^']+)' does not depend on any axioms", l)
    if m: found[m[1]] = 'none'
by = {}
for c in claims:
    for t in c['theorems']:
        by.setdefault(found[t], []).append(t.replace('Verif.Props.', ''))
lines = ['## Axioms of each claimed theorem', '', 'Printed by `#print axioms` (see `tools/axioms.py`); all names are in `Verif.Props`.', '']
for k in sorted(by, key=len):
    lines += [f'* **{k}**: ' + ', '.join(f'`{t}`' for t in by[k]), '']
p = f'{root}/DESIGN.md'
s = open(p).read()
i = s.find('## Axioms of each claimed theorem')
if i >= 0: s = s[:i]
open(p, 'w').write(s.rstrip() + '\n\n' + '\n'.join(lines))
print({k: len(v) for k, v in by.items()})
