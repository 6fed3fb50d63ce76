#!/usr/bin/env python3
"""Print, for every theorem of MANIFEST.json, the axioms it depends on; summary on stdout."""
import json,subprocess,re,collections,sys
m=json.load(open('/verif/MANIFEST.json'))
names=sorted({t for c in m['claims'] for t in c['theorems']})
open('/tmp/Ax.lean','w').write('import Verif\n'+''.join(f'#print axioms {n}\n' for n in names))
out=subprocess.run(['lake','env','lean','/tmp/Ax.lean'],cwd='/verif/lean',capture_output=True,text=True).stdout
out=out.replace('\n ',' ')
cnt=collections.Counter()
for l in out.split("\n"):
    r=re.match(r"'(.*)' depends on axioms: \[(.*)\]",l)
    if r: cnt[r.group(2)]+=1; continue
    r=re.match(r"'(.*)' does not depend",l)
    if r: cnt['(none)']+=1; continue
    if l.strip(): print('??',l)
print(len(names),dict(cnt))
