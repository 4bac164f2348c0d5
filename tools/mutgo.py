#!/usr/bin/env python3
"""Mutate single lines of the translated Go files in a scratch copy and see whether the proofs of C69 notice.

usage: mutgo.py <seed> <count>.  Scratch copy /tmp/mutgo of /tmp/mutsrc/lean; results appended to /tmp/mutgo.results.jsonl."""
import json, os, random, re, subprocess, sys, time
SRC, DST = '/tmp/mutsrc/lean', '/tmp/mutgo'
FILES = ['StringMap', 'BytesMap', 'ArrMap', 'IntMap', 'Map', 'StringSet', 'BytesSet', 'ArrSet', 'IntSet', 'Set']
SUBS = [(' + 1#8', ' + 2#8'), ('- 1#8', '- 0#8'), (' < ', ' ≤ '), (' ≤ ', ' < '), (' ≥ ', ' > '), (' != ', ' == '), (' == ', ' != '), (' && ', ' || '), (' || ', ' && '), ('~~~bit', 'bit'),
        (' ||| bit', ' ||| 0#32'), ('16#8', '8#8'), ('4#8', '2#8'), ('elem pair 0', 'elem pair 1'), ('elem pair 1', 'elem pair 0'), ('.pmap', '.tmap'), ('.tmap', '.pmap'), ('>>> 4', '>>> 3'), ('15#64', '7#64'),
        ('goEq ckey key', 'true'), ('goEq k key', 'true'), ('.write kb', '.write []'), ('.write ckb', '.write kb'), ('setPmap', 'setTmap'), ('setTmap', 'setPmap'), ('len + 1#64', 'len'), ('len - 1#64', 'len'),
        ('2#64', '1#64'), ('newLinkArray 2#8', 'newLinkArray 4#8'), ('newLinkArray 2#8', 'newLinkArray 5#8'), ('count + 1#8', 'count'), ('kbit ||| cbit', 'kbit'), ('key.set', 'ckey.set'), ('ckey.set', 'key.set'), ('sshiftRight 32', 'sshiftRight 31'),
        ('.nil', '(elem (← load l).ptr 0).base'), ('<<< radix', '<<< (radix + 1#8)'), ('ckey', 'key'), ('chd', 'hd'), ('src', '(← load l).ptr'), ('false', 'true'), ('true', 'false')]
def sh(cmd, **k): return subprocess.run(cmd, shell=True, capture_output=True, text=True, **k)
DECL = re.compile(r'^(?:private )?(theorem|def|example|macro)\s*"?([^\s:({\["]*)')
def sync():
    os.makedirs(DST, exist_ok=True)
    sh(f'rm -rf {DST}/Verif; cd {SRC} && cp -rp Verif Verif.lean lakefile.toml lake-manifest.json lean-toolchain {DST}/')
    if not os.path.exists(DST + '/.lake'): sh(f'cp -a {SRC}/.lake {DST}/.lake')
def enclosing(path, line):
    ls = open(path).read().split('\n')
    for i in range(line - 1, -1, -1):
        m = DECL.match(ls[i])
        if m: return m.group(2) or f'example {os.path.basename(path)}:{i+1}'
    return '?'
def candidates():
    out = []
    for f in FILES:
        ls = open(f'{SRC}/Verif/Go{f}.lean').read().split('\n')
        start = next(i for i, l in enumerate(ls) if l.startswith('def '))
        for i in range(start, len(ls)):
            l = ls[i]
            if not re.match(r'^  ', l): continue
            code, _, com = l.partition('  -- ')
            for a, b in SUBS:
                for m in re.finditer(re.escape(a), code):
                    out.append((f, i, code[:m.start()] + b + code[m.end():] + ('  -- ' + com if com else '')))
            if re.match(r'^\s+(set|store|modRoot|path ←|[a-z]+ := |l := )', code): out.append((f, i, re.match(r'^\s*', l).group(0) + 'pure ()' + ('  -- ' + com if com else '')))
    return out
def main():
    rnd = random.Random(int(sys.argv[1])); want = int(sys.argv[2])
    cs = candidates(); rnd.shuffle(cs)
    print(len(cs), 'candidates', flush=True)
    done = 0
    for (f, i, new) in cs:
        if done >= want: break
        sync()
        p = f'{DST}/Verif/Go{f}.lean'
        ls = open(p).read().split('\n'); old = ls[i]
        if old == new: continue
        ls[i] = new
        open(p, 'w').write('\n'.join(ls))
        t = time.time()
        r = sh('timeout 1500 lake build Verif.PropsGo 2>&1', cwd=DST)
        errs = re.findall(r'^error: (?:\S*/)?(Verif/\S+?\.lean):(\d+):\d+:', r.stdout, re.M)
        if any(e[0] == f'Verif/Go{f}.lean' for e in errs): continue
        failed = []
        for e in errs:
            nm = enclosing(f'{DST}/{e[0]}', int(e[1]))
            if nm not in failed: failed.append(nm)
        done += 1
        res = dict(file=f, line=i + 1, definition=f + '.' + enclosing(p, i + 1), old=old.strip(), new=new.strip(), build='ok' if r.returncode == 0 else 'fails', failed=failed, secs=round(time.time() - t))
        open('/tmp/mutgo.results.jsonl', 'a').write(json.dumps(res, ensure_ascii=False) + '\n')
        print(json.dumps(res, ensure_ascii=False), flush=True)
main()
