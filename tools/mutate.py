#!/usr/bin/env python3
"""Apply edits to a scratch copy of the model, rebuild, and report which theorems fail.

usage: mutate.py <name>...   (names from mutations.py; "all" = those not yet in seeded/LOG.jsonl)
The scratch copy is /tmp/mut.  Results are appended to /tmp/mut.results.jsonl.
With TARGETS set (names of modules) only these and what they need are built.
With NOLIMIT set there is no limit on memory, and what is built already need not be built again.
With NOWITNESS set the comparison with the oracle is left out.
Needs /tmp/deps.txt (tools/deps.lean.txt) and /tmp/witness.base (output of tools/witness.lean.txt)."""
import json, os, re, subprocess, sys, time
sys.path.insert(0, os.path.dirname(__file__))
import importlib, mutations
SRC, DST = '/tmp/mutsrc/lean', '/tmp/mut'
def sh(cmd, **k): return subprocess.run(cmd, shell=True, capture_output=True, text=True, **k)
def sync():
    os.makedirs(DST, exist_ok=True)
    sh(f'rm -rf {DST}/Verif; cd {SRC} && cp -rp Verif Verif.lean lakefile.toml lake-manifest.json lean-toolchain {DST}/')
    t = open(DST + '/lakefile.toml').read(); i = t.index('[[lean_lib]]')
    if not os.environ.get('NOLIMIT'): open(DST + '/lakefile.toml', 'w').write(t[:i] + 'moreLeanArgs = ["-M", "5000"]\n' + t[i:])
    if not os.path.exists(DST + '/.lake'): sh(f'cp -a {SRC}/.lake {DST}/.lake')
def deps():
    d = {}
    for l in open('/tmp/deps.txt'):
        a, b = l.rstrip('\n').split('\t'); d[a] = b.split()
    return d
DEP = deps()
def reaches(n, bad, memo):
    if n in memo: return memo[n]
    memo[n] = False
    if n in bad: memo[n] = True; return True
    r = any(reaches(m, bad, memo) for m in DEP.get(n, []))
    memo[n] = r
    return r
sys.setrecursionlimit(100000)
DECL = re.compile(r'^(?:@\[[^\]]*\]\s*)?(?:private |protected |noncomputable )*(theorem|lemma|def|abbrev|instance|example|structure|inductive)\s*([^\s:({\[]*)')
def enclosing(path, line):
    ls = open(path).read().split('\n')
    ns = []
    for i in range(line - 1, -1, -1):
        m = DECL.match(ls[i])
        if m:
            name = m.group(2)
            pre = []
            for j in range(i):
                q = re.match(r'^namespace (\S+)', ls[j])
                if q: pre.append(q.group(1))
                q = re.match(r'^end (\S+)', ls[j])
                if q and pre and pre[-1] == q.group(1): pre.pop()
            if m.group(1) == 'example' or not name: return f'{m.group(1)} {os.path.basename(path)}:{i+1}', None, i
            return name, '.'.join(pre + [name]), i
    return '?', None, 0
def admit(path, i):
    """In the scratch copy, drop the proof of the declaration starting on line i (an example: drop it), so that
    the modules above it can be checked."""
    ls = open(path).read().split('\n')
    j = i + 1
    while j < len(ls) and (ls[j] == '' or ls[j][0] in ' \t·|' or ls[j].startswith('  ')): j += 1
    block = '\n'.join(ls[i:j])
    if DECL.match(ls[i]).group(1) == 'example': new = 'example : True := trivial'   # keeps a comment in front of it in place
    else:
        depth = 0; cut = None
        for k, ch in enumerate(block):
            if ch in '([{⟨': depth += 1
            elif ch in ')]}⟩': depth -= 1
            elif depth == 0 and block.startswith(':=', k): cut = k; break
            elif depth == 0 and re.match(r'\n  \| ', block[k:k+5]): cut = k; break
        if cut is None: cut = len(block)
        new = block[:cut] + ' := sorry\n'
    n = block.count('\n') - new.count('\n')
    ls[i:j] = (new + '\n' * max(n, 0)).split('\n')
    open(path, 'w').write('\n'.join(ls))
def run(mu):
    sync()
    for (f, old, new) in mu['edits']:
        p = f'{DST}/Verif/{f}'
        s = open(p).read()
        n = s.count(old)
        want = mu.get('count', 1)
        assert n >= 1 and (want == 0 or n == want), (mu['name'], f, old, n)
        open(p, 'w').write(s.replace(old, new))
    t = time.time()
    failed, full, rc, skipped = [], set(), 0, []
    heavy = ['Bugs', 'BugsMore', 'PropsLaws'] + mutations.HEAVY   # concrete evaluations: slow to fail, so only built if all else holds
    light = [m for m in re.findall(r'import (Verif\.\S+)', open(DST + '/Verif.lean').read()) if m[6:] not in heavy]
    only = os.environ.get('TARGETS')
    if only: light, heavy = ['Verif.' + m for m in only.split()], []
    target = ' '.join(light)
    for rnd in range(12):
        r = sh(f'lake build {target} 2>&1', cwd=DST)
        out = r.stdout
        if r.returncode == 0:
            if failed or not target or only: break
            target = ''
            continue
        rc = 1
        hits = {}
        for m in re.finditer(r'^error: (?:\S*/)?(Verif/\S+?\.lean):(\d+):\d+:', out, re.M):
            path = f'{DST}/{m.group(1)}'
            nm, fn, i = enclosing(path, int(m.group(2)))
            if nm not in failed: failed.append(nm)
            if fn: full.add(fn)
            hits.setdefault(path, {})[i] = nm
        for m in re.finditer(r'error: Lean exited with code 137', out):   # out of memory: leave out the evaluations of this module
            mod = re.findall(r'^✖ \[\d+/\d+\] Building (Verif\.\S+)', out[:m.start()], re.M)[-1]
            path = f'{DST}/{mod.replace(".", "/")}.lean'
            for i, l in enumerate(open(path).read().split('\n')):
                if 'decide +kernel' in l:
                    nm, fn, k = enclosing(path, i + 1)
                    hits.setdefault(path, {})[k] = nm
            if mod not in skipped: skipped.append(mod)
        if not hits: break
        for path, d in hits.items():
            for i in sorted(d, reverse=True): admit(path, i)
    if failed:   # the heavy modules, once each, without waiting long
        for h in heavy:
            out2 = sh(f'timeout 400 lake build Verif.{h} 2>&1', cwd=DST).stdout
            for m in re.finditer(r'^error: (?:\S*/)?(Verif/\S+?\.lean):(\d+):\d+:', out2, re.M):
                nm, fn, i = enclosing(f'{DST}/{m.group(1)}', int(m.group(2)))
                if nm not in failed: failed.append(nm)
                if fn: full.add(fn)
    man = [t_ for c in json.load(open('/verif/MANIFEST.json'))['claims'] for t_ in c['theorems']]
    memo = {}
    lost = [t_ for t_ in man if reaches(t_, full, memo)]
    kept = [t_ for t_ in man if t_ not in lost]
    w = '' if os.environ.get('NOWITNESS') else sh('timeout 900 lake env lean -M 9000 --run /verif/tools/witness.lean.txt 2>&1', cwd=DST).stdout
    base = {} if not w else {l.split()[0]: l for l in open('/tmp/witness.base') if ' fp=' in l}
    now = {l.split()[0]: l for l in w.split('\n') if ' fp=' in l}
    changed = [k for k in base if k not in now or now[k].split('bad=')[0].strip() != base[k].split('bad=')[0].strip()]
    bad = {k: now[k].split('bad=')[1].strip() for k in now if not now[k].strip().endswith('bad=[]')}
    det = [l.strip() for l in w.split('\n') if l.startswith('  ')][:6]
    res = dict(name=mu['name'], definition=mu['definition'], edit=mu['edit'], claim=mu['claim'], build='ok' if rc == 0 else 'fails', unresolved=r.returncode != 0,
               failed=failed, skipped=skipped, lost=lost, kept=kept, changed=changed, bad=bad, detail=det, secs=round(time.time() - t))
    open('/tmp/mut.results.jsonl', 'a').write(json.dumps(res) + '\n')
    print(json.dumps({k: v for k, v in res.items() if k not in ('lost', 'kept', 'detail', 'edit', 'claim', 'definition')}), 'lost', len(lost), 'kept', len(kept), flush=True)
    if not os.environ.get('NOWITNESS') and not now: print('   witness:', w[:300])
    if r.returncode: print(out[-1500:])
for a in sys.argv[1:]:
    for mu in mutations.ALL:
        if a == mu['name'] or a == 'all' or (a.endswith('*') and mu['name'].startswith(a[:-1])): run(mu)
