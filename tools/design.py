#!/usr/bin/env python3
"""Regenerates DESIGN.md: tools/design_head.md + per-property table + coverage of the sources + tools/design_tail.md."""
import json,re,glob,collections,os
m={c['property']:c for c in json.load(open('/verif/MANIFEST.json'))['claims']}
props=[json.loads(l) for l in open('/verif/properties.jsonl')]
where={}
cov=collections.defaultdict(lambda: collections.defaultdict(set))
for f in sorted(glob.glob('/verif/lean/Verif/**/*.lean',recursive=True)):
    t=open(f).read(); rel=f.split('/lean/Verif/')[1]
    for n in re.findall(r'theorem (C\d\d\w*)',t): where.setdefault(n,rel)
    for a,b in re.findall(r'((?:core|apps|libcutils)/[\w/.+-]+?\.(?:cc|hpp|h))((?::\d+(?:[-–,] ?\d+)*)?)',t):
        cov[a][rel.split('/')[0]].add(b.lstrip(':'))
out=[open('/verif/tools/design_head.md').read()]
out.append('\n## Plan and outcome per property\n\nModules are under `lean/Verif/`. "partial": the full statement is kept in `properties.jsonl`; the note says what is proved, what is missing and what is refuted.\n\n')
out.append('| Id | Property | Modules | Status | Theorems and outcome |\n|----|----|----|----|----|\n')
for p in props:
    c=m[p['id']]
    mods=sorted({where.get(t.split('.')[-1],'?') for t in c['theorems']})
    ths=', '.join('`'+t.split('.')[-1]+'`' for t in c['theorems'])
    out.append(f"| {p['id']} | {p['title']} | {', '.join(mods)} | {c['status']} | {c['note']} {ths} |\n".replace('\n ',' '))
out.append('\n## Which parts of the code are modelled (generated from the citations in the Lean sources)\n\n| Source file | Lean area: cited lines |\n|----|----|\n')
for a in sorted(cov):
    l=[]
    for r in sorted(cov[a]):
        s=sorted({x for x in cov[a][r] if x},key=lambda x:int(re.match(r'\d+',x).group(0)))
        l.append(r.replace('.lean','')+': '+(', '.join(s) if s else 'whole file'))
    out.append(f"| {a} | {'; '.join(l)} |\n")
out.append('\n'+open('/verif/tools/design_tail.md').read())
open('/verif/DESIGN.md','w').write(''.join(out))
