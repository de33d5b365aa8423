#!/usr/bin/env python3
"""Parallel seeded-bug harness. Usage: seedp.py PRISTINE SCRATCHDIR WORKERS RESULTS mutations.py[:first]...

PRISTINE is a built copy of /verif/lean. Each worker has its own copy in SCRATCHDIR, in which it applies a mutation (see seed.py),
builds the theorem modules of the properties (and everything, if these still prove), records the failing declarations and
restores the sources and the build products. A build that takes too long is recorded as a timeout."""
import sys, subprocess, re, json, os, shutil, threading, queue
pristine, base, workers, results = sys.argv[1], sys.argv[2], int(sys.argv[3]), sys.argv[4]
LIMIT = 600
Q = queue.Queue()
done = set()
if os.path.exists(results):
    for l in open(results):
        r = json.loads(l); done.add((r['set'], r['idx']))
for a in sys.argv[5:]:
    f, _, lo = a.partition(':')
    ns = {}
    exec(open(f).read(), ns)
    for i, m in enumerate(ns['M']):
        if i >= int(lo or 0) and (os.path.basename(f), i) not in done: Q.put((os.path.basename(f), i, m))
lock = threading.Lock()
os.makedirs(base, exist_ok=True)
open(f'{base}/deps.lean', 'w').write('''import Verif
open Lean
run_cmd do
  let env ← getEnv
  let h ← IO.FS.Handle.mk "%s/deps.txt" .write
  for (n, c) in env.constants.map₁.toList do
    if (`Verif).isPrefixOf n then
      let m := (env.getModuleIdxFor? n).map (fun i => env.header.moduleNames[i.toNat]!) |>.getD `none
      let mut used := c.type.getUsedConstants
      if let some v := c.value? (allowOpaque := true) then used := used ++ v.getUsedConstants
      let u := used.filter (fun x => (`Verif).isPrefixOf x)
      h.putStrLn s!"{m}|{n}|{" ".intercalate (u.toList.map toString)}"
''' % base)
subprocess.run(['lake', 'env', 'lean', f'{base}/deps.lean'], cwd=pristine, check=True)
D, MOD, rev = {}, {}, {}
for l in open(f'{base}/deps.txt'):
    m, n, u = l.rstrip('\n').split('|')
    D[n] = u.split(); MOD[n] = m
for n, us in D.items():
    for u in us: rev.setdefault(u, set()).add(n)
def closure(seeds):
    seen, st = set(seeds), list(seeds)
    while st:
        for k in rev.get(st.pop(), ()):
            if k not in seen: seen.add(k); st.append(k)
    return seen
def modules_of(props):
    r = []
    for n in sorted(os.listdir(f'{pristine}/Verif/Theorems')):
        t = open(f'{pristine}/Verif/Theorems/{n}').read()
        if any(re.search(r'theorem %s_' % p, t) for p in re.findall(r'C\d+', props)): r.append('Verif.Theorems.' + n[:-5])
    return r
def decl_at(path, line):
    ls = open(path).read().split('\n')
    for i in range(min(line, len(ls)) - 1, -1, -1):
        m = re.match(r'\s*(?:@\[.*?\]\s*)?(?:private |protected |noncomputable )*(theorem|lemma|def|abbrev|instance|structure|inductive|example)\b\s*(\S+)?', ls[i])
        if m: return m.group(1), (m.group(2) or '')
    return None, ''
def build(scratch, *targets):
    p = subprocess.run(['timeout', '-k', '5', str(LIMIT), 'lake', 'build', *targets], cwd=scratch, capture_output=True, text=True)
    return p.returncode, p.stdout + p.stderr
def work(k):
    scratch = f'{base}/w{k}'
    if not os.path.exists(scratch): subprocess.run(['cp', '-a', pristine, scratch], check=True)
    stamp = f'{base}/stamp{k}'
    while True:
        try: name, idx, (f, defn, old, new, claim, props) = Q.get_nowait()
        except queue.Empty: return
        rel = f'Verif/Model/{f}.lean' if '/' not in f else f'Verif/{f}.lean'
        path = f'{scratch}/{rel}'
        src = open(f'{pristine}/{rel}').read()
        res = {'set': name, 'idx': idx, 'file': f, 'definition': defn, 'old': old, 'new': new, 'claim': claim, 'props': props}
        if src.count(old) != 1:
            res['ERROR'] = f'{src.count(old)} matches'
        else:
            open(stamp, 'w').close()
            open(path, 'w').write(src.replace(old, new))
            ts = modules_of(props)
            rc, out = build(scratch, *ts) if ts else (0, '')
            if rc == 0: rc, out = build(scratch)
            fails, direct, modelerr = [], set(), []
            for m in re.finditer(r'error: \.?/?(\S+?\.lean):(\d+):(\d+): (.*)', out):
                kind, nm = decl_at(f'{scratch}/{m.group(1)}', int(m.group(2)))
                module = m.group(1)[:-5].replace('/', '.')
                if '.Model.' in module: modelerr.append(m.group(4))
                label = f'{module}.{nm}' if kind != 'example' else f'{module}.example@{m.group(2)}'
                if label not in fails: fails.append(label)
                for n in D:
                    if MOD[n] == module and n.endswith('.' + nm) and nm: direct.add(n)
            aff = sorted({n.split('.')[-1] for n in closure(direct) if re.match(r'C\d\d+_', n.split('.')[-1])})
            res.update({'built': rc == 0, 'failed_decls': fails[:8], 'failed': aff, 'modelerr': modelerr[:2]})
            if rc in (124, 137) and not fails: res['ERROR'] = 'timeout'
            shutil.copy2(f'{pristine}/{rel}', path)
            new_files = subprocess.run(['find', '.lake/build', '-newer', stamp, '-type', 'f'], cwd=scratch, capture_output=True, text=True).stdout.split()
            for n in new_files:
                if os.path.exists(f'{pristine}/{n}'): shutil.copy2(f'{pristine}/{n}', f'{scratch}/{n}')
                else: os.remove(f'{scratch}/{n}')
        with lock, open(results, 'a') as g: g.write(json.dumps(res, ensure_ascii=False) + '\n')
T = [threading.Thread(target=work, args=(k,)) for k in range(workers)]
for t in T: t.start()
for t in T: t.join()
