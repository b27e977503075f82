#!/usr/bin/env python3
"""Write AXIOMS.md: the axioms each theorem in MANIFEST.json depends on."""
import json, os, re, subprocess, tempfile
root = os.path.dirname(os.path.dirname(os.path.abspath(__file__)))
names = [t for c in json.load(open(root + '/MANIFEST.json'))['claims'] for t in c['theorems']]
with tempfile.NamedTemporaryFile('w', suffix='.lean', delete=False) as f:
    f.write('import Verif\n' + ''.join('#print axioms %s\n' % n for n in names))
out = subprocess.run(['lake', 'env', 'lean', f.name], cwd=root + '/lean', capture_output=True, text=True).stdout
os.unlink(f.name)
groups = {}
for m in re.finditer(r"'([^']+)' (?:depends on axioms: \[([^\]]*)\]|does not depend on any axioms)", out):
    ax = ', '.join(sorted(a.strip() for a in (m.group(2) or '').split(',') if a.strip())) or 'none'
    groups.setdefault(ax, []).append(m.group(1).replace('Caustics.', ''))
assert sum(map(len, groups.values())) == len(names), (sum(map(len, groups.values())), len(names), out[:2000])
with open(root + '/AXIOMS.md', 'w') as g:
    g.write('# Axioms per theorem\n\nGenerated by `tools/axioms.py` from `#print axioms`.\n')
    for ax, ns in sorted(groups.items()):
        g.write('\n## %s (%d)\n\n' % (ax, len(ns)) + ', '.join('`%s`' % n for n in ns) + '\n')
print({a: len(n) for a, n in groups.items()})
