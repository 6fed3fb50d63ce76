#!/usr/bin/env python3
"""Mutation runner: mutate.py mutants.json — each mutant {file, def, old, new, claim}.
Works in /tmp/mut (scratch copy), appends one line per mutant to /verif/seeded/LOG.jsonl (when --log)."""
import sys, json, subprocess, shutil, os, re, glob
log = '--log' in sys.argv
muts = json.load(open([a for a in sys.argv[1:] if not a.startswith('--')][0]))
W = '/tmp/mut/lean'
# A snapshot of the project is taken once, so that /verif/lean can change during the run.
SNAP = '/tmp/mutsnap/lean'
shutil.rmtree('/tmp/mutsnap', ignore_errors=True); os.makedirs('/tmp/mutsnap')
subprocess.run(['cp', '-a', '/verif/lean', '/tmp/mutsnap/'], check=True)
def sync():
    os.makedirs('/tmp/mut', exist_ok=True)
    subprocess.run(['rsync', '-a', '--delete', SNAP + '/', W + '/'], check=True) if shutil.which('rsync') else \
        (shutil.rmtree(W, ignore_errors=True), subprocess.run(['cp', '-a', SNAP, '/tmp/mut/'], check=True))
def decls(path):
    out = []
    for i, l in enumerate(open(path), 1):
        m = re.match(r'\s*(?:@\[.*?\]\s*)?(?:private |noncomputable |protected )*(theorem|lemma|def|example|instance|abbrev)\s*(\S*)', l)
        if m: out.append((i, m.group(1), m.group(2)))
    return out
for mu in muts:
    sync()
    p = f'{W}/Verif/{mu["file"]}'
    orig = open(p).read()
    if orig.count(mu['old']) < 1:
        print('NOT FOUND', mu['file'], mu['old'][:60]); continue
    n = mu.get('occ', 1)
    com = [(m.start(), m.end()) for m in re.finditer(r'/-.*?-/|--[^\n]*', orig, re.S)]
    pos = [m.start() for m in re.finditer(re.escape(mu['old']), orig) if not any(a <= m.start() < b for a, b in com)]
    dp = re.search(r'def ' + re.escape(mu['def']) + r'(?![\w.])', orig)
    after = [q for q in pos if dp and q >= dp.start()]
    pos = after or pos
    if len(pos) < n:
        print('NOT FOUND', mu['file'], mu['old'][:60]); continue
    q = pos[n - 1]
    new = orig[:q] + mu['new'] + orig[q + len(mu['old']):]
    open(p, 'w').write(new)
    r = subprocess.run(['lake', 'build'], cwd=W, capture_output=True, text=True, timeout=3000)
    txt = r.stdout + r.stderr
    failed, mods = [], set()
    for m in re.finditer(r'error: (Verif/\S+?\.lean):(\d+):', txt):
        f, ln = m.group(1), int(m.group(2)); mods.add(f)
        last = None
        for d in decls(f'{W}/{f}'):
            if d[0] <= ln: last = d
        if last:
            nm = f'{last[1]} {last[2]}'.strip() + ' (' + f[6:] + ')'
            if nm not in failed: failed.append(nm)
    # indirect: property theorems that mention (transitively) a failed declaration
    bad = {x.split()[1] for x in failed if len(x.split()) > 2}
    # (only the modules which failed, and those which import them)
    imp = {}
    for f in glob.glob(W + '/Verif/**/*.lean', recursive=True):
        imp[os.path.relpath(f, W)] = {x.replace('.', '/') + '.lean' for x in re.findall(r'^import (Verif\.\S+)', open(f).read(), re.M)}
    touched = set(mods); grow = True
    while grow:
        more = {f for f, i in imp.items() if f not in touched and i & touched}
        grow = bool(more); touched |= more
    src = {}
    for f in touched:
        L = open(f'{W}/{f}').read().split('\n'); ds = decls(f'{W}/{f}')
        for k, d in enumerate(ds):
            e = ds[k + 1][0] - 1 if k + 1 < len(ds) else len(L)
            if d[2]: src.setdefault(d[2], set()).update(re.findall(r"[\w']+", '\n'.join(L[d[0] - 1:e])))
    allbad = set(bad); ch = True
    while ch:
        short = {b.split('.')[-1] for b in allbad}
        more = {n for n, t in src.items() if n not in allbad and t & short}
        ch = bool(more); allbad |= more
    props = sorted(x for x in allbad if re.match(r'C\d\d+_', x))
    comp = any(('Model.lean' in f) for f in mods)
    verdict = 'SURVIVED' if not failed else 'killed'
    print(verdict, '|', mu['file'], '|', mu['def'], '|', mu['claim'][:70], '| direct:', failed[:4], '| props:', props[:8], '| MODEL ERROR' if comp else '')
    sys.stdout.flush()
    if log and not comp:
        with open('/verif/seeded/LOG.jsonl', 'a') as fo:
            fo.write(json.dumps({'definition': mu['def'], 'file': mu['file'], 'edit': f"{mu['old']}  ->  {mu['new']}", 'claim_broken': mu['claim'],
                'theorems_failed': props if props else failed, 'first_failures': failed[:6],
                'theorems_tightened': mu.get('tightened', [])}, ensure_ascii=False) + '\n')
