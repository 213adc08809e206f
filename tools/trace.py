#!/usr/bin/env python3
"""Writes the traceability table of DESIGN.md: property -> code -> model files -> files with the theorems."""
import json,re,os
root=os.path.dirname(os.path.dirname(os.path.abspath(__file__)))
L=root+'/lean/'
defs={}   # name -> model file
for d in ('Verif/Model','Verif'):
    for f in sorted(os.listdir(L+d)):
        if f.endswith('.lean') and f!='Spec.lean':
            pass
imports={}
def src(m): return open(L+m.replace('.','/')+'.lean').read()
def deps(m,seen):
    if m in seen: return
    seen.add(m)
    for x in re.findall(r'^import (Verif\.\S+)',src(m),re.M): deps(x,seen)
# definitions of each model file
D={}
for d,_,fs in os.walk(L+'Verif'):
    for f in sorted(fs):
        p=os.path.join(d,f)
        rel=os.path.relpath(p,L)[:-5].replace('/','.')
        if rel.startswith('Verif.Model.') or rel in('Verif.MachInt','Verif.Float','Verif.Rounding','Verif.Complex','Verif.Counting'):
            D[rel]=set(n.split('.')[-1] for n in re.findall(r'^(?:noncomputable )?def (\S+)',open(p).read(),re.M))
ALL=set().union(*D.values())
th={}
for f in sorted(os.listdir(L+'Verif/Props')):
    s=open(L+'Verif/Props/'+f).read()
    for m in re.finditer(r'^theorem (C\d+)(\w*)([\s\S]*?):= ?(?:by)?$',s,re.M):
        th.setdefault(m.group(1),[]).append((m.group(1)+m.group(2),f[:-5],m.group(3)))
rows=['| property | title | model definitions in the statements | theorems in `Verif/Props/` |','|---|---|---|---|']
for l in open(root+'/properties.jsonl'):
    p=json.loads(l); i=p['id']
    ts=th.get(i,[])
    files=sorted(set(t[1] for t in ts))
    words=set()
    for t in ts:
        for w in re.findall(r"[A-Za-z_][\w.]*",t[2]):
            w=w.split('.')[-1]
            if w in ALL and len(w)>1: words.add(w)
    rows.append('| %s | %s | %s | %s |'%(i,p['title'],', '.join('`%s`'%w for w in sorted(words)),', '.join(files)))
f=root+'/DESIGN.md'
s=open(f).read()
a='<!-- trace begin -->'; b='<!-- trace end -->'
if a not in s:
    j=s.index('## Axioms of each theorem')
    s=s[:j]+'## Where to find each property\n\nWritten by `tools/trace.py`.\n\n'+a+'\n'+b+'\n\n'+s[j:]
x=s.index(a)+len(a); y=s.index(b)
open(f,'w').write(s[:x]+'\n'+'\n'.join(rows)+'\n'+s[y:])
