#!/usr/bin/env python3
"""Ask Lean for the axioms behind every theorem named in MANIFEST.json and write
them to AXIOMS.md.  Run after `lake build`, from anywhere."""
import json, os, re, subprocess, tempfile

ROOT = os.path.dirname(os.path.dirname(os.path.abspath(__file__)))
claims = json.load(open(os.path.join(ROOT, 'MANIFEST.json')))['claims']
names = [(c['property'], n) for c in claims for n in c['theorems']]
with tempfile.NamedTemporaryFile('w', suffix='.lean', delete=False) as f:
    f.write('import Verif\n' + ''.join('#print axioms %s\n' % n for _, n in names))
out = subprocess.run(['lake', 'env', 'lean', f.name], cwd=os.path.join(ROOT, 'lean'),
                     capture_output=True, text=True).stdout
os.unlink(f.name)
found = {}
for m in re.finditer(r"'([^']+)' (does not depend on any axioms|depends on axioms: \[([^\]]*)\])", out):
    found[m.group(1)] = ', '.join((m.group(3) or 'none').replace('\n', ' ').split(', ')).strip()
missing = [n for _, n in names if n not in found]
if missing:
    raise SystemExit('no answer for: ' + ', '.join(missing))
allowed = {'propext', 'Classical.choice', 'Quot.sound', 'none'}
for n, a in found.items():
    bad = set(x.strip() for x in a.split(',')) - allowed
    if bad:
        raise SystemExit('%s uses %s' % (n, bad))
with open(os.path.join(ROOT, 'AXIOMS.md'), 'w') as g:
    g.write('# Axioms behind each property theorem\n\n'
            'Written by `tools/axioms.py` from `#print axioms`. Do not edit by hand.\n\n'
            '| Property | Theorem | Axioms |\n|---|---|---|\n')
    for p, n in names:
        g.write('| %s | `%s` | %s |\n' % (p, n, found[n]))
print(len(names), 'theorems')
