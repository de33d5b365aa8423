#!/usr/bin/env python3
"""Seeded-bug harness. Usage: seed.py SCRATCH mutations.py [first [last]]

SCRATCH is a copy of /verif/lean (outside /verif). Each mutation is (file, definition, old, new, claim,
properties): the edit is applied to the copy, `lake build` is run, the failing declarations are
collected and the property theorems depending on them are listed. Output: JSON lines on stdout."""
import sys, subprocess, re, json, os
scratch, mfile = sys.argv[1], sys.argv[2]
lo = int(sys.argv[3]) if len(sys.argv) > 3 else 0
hi = int(sys.argv[4]) if len(sys.argv) > 4 else 10**9
ns = {}
exec(open(mfile).read(), ns)
M = ns['M']
def build(*targets):
    p = subprocess.run(['lake', 'build', *targets], cwd=scratch, capture_output=True, text=True)
    return p.returncode, p.stdout + p.stderr
def modules_of(props):
    """The theorem modules with theorems of the given properties."""
    r = []
    for n in sorted(os.listdir(f'{scratch}/Verif/Theorems')):
        t = open(f'{scratch}/Verif/Theorems/{n}').read()
        if any(re.search(r'theorem %s_' % p, t) for p in re.findall(r'C\d+', props)): r.append('Verif.Theorems.' + n[:-5])
    return r
def build_for(f, props):
    """The theorems about the properties first; everything if they still prove."""
    ts = modules_of(props)
    if ts:
        rc, out = build(*ts)
        if rc != 0: return rc, out
    return build()
def deps():
    subprocess.run(['lake', 'env', 'lean', '/tmp/seedwork/deps.lean'], cwd=scratch, check=True)
    d, mod = {}, {}
    for l in open('/tmp/seedwork/deps.txt'):
        m, n, u = l.rstrip('\n').split('|')
        d[n] = u.split(); mod[n] = m
    return d, mod
def decl_at(path, line):
    ls = open(path).read().split('\n')
    for i in range(min(line, len(ls)) - 1, -1, -1):
        m = re.match(r'\s*(?:@\[.*?\]\s*)?(?:private |protected |noncomputable )*(theorem|lemma|def|abbrev|instance|structure|inductive|example)\b\s*(\S+)?', ls[i])
        if m:
            return m.group(1), (m.group(2) or '')
    return None, ''
rc, out = build()
if rc != 0: print(out[-2000:]); sys.exit('scratch copy does not build')
D, MOD = deps()
rev = {}
for n, us in D.items():
    for u in us: rev.setdefault(u, set()).add(n)
def closure(seeds):
    seen, st = set(seeds), list(seeds)
    while st:
        for k in rev.get(st.pop(), ()):
            if k not in seen: seen.add(k); st.append(k)
    return seen
for idx, (f, defn, old, new, claim, props) in enumerate(M):
    if not (lo <= idx < hi): continue
    path = f'{scratch}/Verif/Model/{f}.lean' if '/' not in f else f'{scratch}/Verif/{f}.lean'
    src = open(path).read()
    if src.count(old) != 1:
        print(json.dumps({'idx': idx, 'ERROR': f'{src.count(old)} matches', 'old': old})); sys.stdout.flush(); continue
    open(path, 'w').write(src.replace(old, new))
    try:
        rc, out = build_for(f, props)
    finally:
        open(path, 'w').write(src)
    fails, direct, modelerr = [], set(), []
    for m in re.finditer(r'error: \.?/?(\S+?\.lean):(\d+):(\d+): (.*)', out):
        p = f'{scratch}/{m.group(1)}'
        kind, name = decl_at(p, int(m.group(2)))
        module = m.group(1)[:-5].replace('/', '.')
        if '.Model.' in module: modelerr.append(m.group(4))
        label = f'{module}.{name}' if kind != 'example' else f'{module}.example@{m.group(2)}'
        if label not in fails: fails.append(label)
        for n in D:
            if MOD[n] == module and (n.endswith('.' + name)) and name: direct.add(n)
    aff = sorted({n.split('.')[-1] for n in closure(direct) if re.match(r'C\d\d+_', n.split('.')[-1])})
    print(json.dumps({'idx': idx, 'file': f, 'definition': defn, 'old': old, 'new': new, 'claim': claim,
        'props': props, 'built': rc == 0, 'failed_decls': fails[:8], 'failed': aff, 'modelerr': modelerr[:2]}))
    sys.stdout.flush()
