#!/usr/bin/env python3
"""Regenerates MANIFEST.json from the Lean sources and tools/status.json (status + note per property)."""
import re, json, glob, collections
st = json.load(open('/verif/tools/status.json'))
th = collections.defaultdict(list)
for f in sorted(glob.glob('/verif/lean/Verif/**/*.lean', recursive=True)):
    ns = []
    for l in open(f):
        m = re.match(r'namespace (\S+)', l)
        if m: ns.append(m.group(1))
        m = re.match(r'end (\S+)', l)
        if m and ns and ns[-1] == m.group(1): ns.pop()
        m = re.match(r'\s*(?:@\[.*?\] )?theorem (C\d\d\w*)', l)
        if m:
            n = m.group(1)
            th[re.match(r'C\d+', n).group(0)].append('.'.join(ns + [n]))
props = [json.loads(l) for l in open('/verif/properties.jsonl')]
claims = []
for p in props:
    i = p['id']
    s = st.get(i)
    if not s:
        print('missing status', i); continue
    if not th[i] and s[0] != 'not_applicable': print('NO THEOREMS', i)
    claims.append({"property": i, "status": s[0], "theorems": th[i], "note": s[1]})
ids = {p['id'] for p in props}
for i in th:
    if i not in ids: print('theorem without property', i)
json.dump({"claims": claims}, open('/verif/MANIFEST.json', 'w'), indent=1, ensure_ascii=False)
print(len(claims), collections.Counter(c['status'] for c in claims), sum(map(len, th.values())))
