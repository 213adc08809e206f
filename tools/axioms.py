#!/usr/bin/env python3
"""Asks Lean for the axioms of every theorem in MANIFEST.json and rewrites the list in DESIGN.md."""
import json, os, re, subprocess, tempfile
root = os.path.dirname(os.path.dirname(os.path.abspath(__file__)))
names = [t for c in json.load(open(root + '/MANIFEST.json'))['claims'] for t in c['theorems']]
src = 'import Verif\nopen Lean Elab Command in\nrun_cmd do\n  for n in [%s] do\n    let ax ← liftCoreM (collectAxioms n)\n    IO.println s!"{n} {ax.toList}"\n' % ', '.join('``' + n for n in names)
with tempfile.TemporaryDirectory() as d:
    open(d + '/A.lean', 'w').write(src)
    out = subprocess.run(['lake', 'env', 'lean', d + '/A.lean'], cwd=root + '/lean', capture_output=True, text=True).stdout
groups = {}
for l in out.splitlines():
    m = re.match(r'(\S+) \[(.*)\]', l)
    if m: groups.setdefault(tuple(sorted(x.strip() for x in m.group(2).split(',') if x.strip())), []).append(m.group(1).replace('Rowcol.', ''))
assert sum(map(len, groups.values())) == len(names), out[-2000:]
txt = ''
for g in sorted(groups, key=len):
    assert set(g) <= {'propext', 'Classical.choice', 'Quot.sound'}, g
    txt += '**%s** (%d theorems): %s.\n\n' % (', '.join('`%s`' % x for x in g) or 'no axioms', len(groups[g]), ', '.join(groups[g]))
d = open(root + '/DESIGN.md').read()
a, b = '<!-- axioms begin -->\n', '<!-- axioms end -->'
i, j = d.index(a) + len(a), d.index(b)
open(root + '/DESIGN.md', 'w').write(d[:i] + txt + d[j:])
print({g: len(v) for g, v in groups.items()})
