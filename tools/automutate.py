#!/usr/bin/env python3
"""Automatic mutation of the model.  Usage: automutate.py <worker> <nworkers> <out.jsonl> [per_def] [only-file-with-names]
Each definition of lean/Verif/Model gets one (or per_def) random small edit: swapped operator, changed constant, boundary, branch, field.
The edited module and the modules that depend on it are compiled one at a time into an overlay of the compiled files, modules that
mention the definition first, until one fails (killed) or all pass (survived)."""
import re, glob, os, sys, json, random, subprocess, shutil, time, collections
w, nw, OUT = int(sys.argv[1]), int(sys.argv[2]), sys.argv[3]
per = int(sys.argv[4]) if len(sys.argv) > 4 else 1
only = set(open(sys.argv[5]).read().split()) if len(sys.argv) > 5 else None
SRC = os.environ.get('AM_SRC', '/tmp/am/src')           # snapshot of /verif/lean with compiled files
LIB = SRC + '/.lake/build/lib/lean'
WK = f'/tmp/am/w{w}'; OV = WK + '/lib'
CAP = int(os.environ.get('AM_CAP', '420'))
shutil.rmtree(WK, ignore_errors=True); os.makedirs(WK)
subprocess.run(['cp', '-al', LIB, OV], check=True)
lp = subprocess.run('lake env printenv LEAN_PATH', shell=True, cwd=SRC, capture_output=True, text=True).stdout.strip()
lp = ':'.join([OV] + [p for p in lp.split(':') if os.path.abspath(os.path.join(SRC, p)) != os.path.abspath(LIB)])
env = dict(os.environ, LEAN_PATH=lp)
mods = {}
for f in glob.glob(SRC + '/Verif/**/*.lean', recursive=True):
    m = f[len(SRC)+1:-5].replace('/', '.')
    t = open(f).read()
    mods[m] = (f, t, [x for x in re.findall(r'^import (Verif\.\S+)', t, re.M)])
rdep = collections.defaultdict(set)
for m, (_, _, im) in mods.items():
    for i in im: rdep[i].add(m)
def dependents(m):
    out, st = set(), [m]
    while st:
        for d in rdep[st.pop()]:
            if d not in out: out.add(d); st.append(d)
    return out
def prereqs(m, dep):
    out, st = {m}, [m]
    while st:
        for i in mods[st.pop()][2]:
            if i in dep and i not in out: out.add(i); st.append(i)
    return out
def topo(s):
    res, seen = [], set()
    def go(m):
        if m in seen: return
        seen.add(m)
        for i in sorted(mods[m][2]):
            if i in s: go(i)
        res.append(m)
    for m in sorted(s): go(m)
    return res
OPS = [(r' \+ ', ' - '), (r' - ', ' + '), (r' \* ', ' + '), (r' / ', ' * '), (r' < ', ' ≤ '), (r' ≤ ', ' < '), (r' < ', ' > '), (r'\bmin\b', 'max'), (r'\bmax\b', 'min'),
       (r'\bcos\b', 'sin'), (r'\bsin\b', 'cos'), (r'\btrue\b', 'false'), (r'\bfalse\b', 'true'), (r' ∧ ', ' ∨ '), (r' ∨ ', ' ∧ '), (r' && ', ' || '), (r' \|\| ', ' && '),
       (r'¬ ?', ''), (r'(?<![\w.])!', ''), (r'\.x\b', '.y'), (r'\.y\b', '.z'), (r'\.z\b', '.x'), (r'\.1\b', '.2'), (r'\.2\b', '.1'), (r'\.fst\b', '.snd'), (r'\.snd\b', '.fst'),
       (r' = ', ' ≠ '), (r' ≠ ', ' = '), (r' == ', ' != '), (r'(?<![\w.])0(?![\w.])', '1'), (r'(?<![\w.])1(?![\w.])', '2'), (r'(?<![\w.])2(?![\w.])', '3'), (r'(?<![\w.])3(?![\w.])', '4'),
       (r'(?<![\w.])0\.5(?!\w)', '0.25'), (r'\bsome\b', 'none'), (r'\bexp\b', 'cosh'), (r'\bhead\b', 'getLast'), (r'\.reverse\b', ''), (r'\bfoldl\b', 'foldr'), (r' % ', ' / '),
       (r'\btake\b', 'drop'), (r'\bdrop\b', 'take'), (r'-(?=[\w(])', ''), (r'\|([\w .]+)\|', r'(\1)'), (r'\bsqrt\b', 'abs'), (r' \^ 2\b', ' ^ 3'),
       (r'\bfilter\b', 'map'), (r'\bwrap', 'id <| wrap'), (r'\breplicate\b', 'replicate'), (r'\bi\b', 'j'), (r'\bj\b', 'i'), (r'\ba\b', 'b'), (r'\bb\b', 'a')]
def bodies():
    for m in sorted(mods):
        if not m.startswith('Verif.Model.'): continue
        f, t, _ = mods[m]
        L = t.split('\n'); k = 0; off = [0]
        for l in L: off.append(off[-1] + len(l) + 1)
        while k < len(L):
            g = re.match(r'(?:noncomputable |private |@\[[^\]]*\] )*(?:def|abbrev) (\S+)', L[k])
            if g:
                e = k + 1
                while e < len(L) and (L[e] == '' or L[e][0] in ' \t') : e += 1
                s = t[off[k]:off[e]]
                c = s.find(':=')
                if c < 0: c = s.find('\n')
                yield m, g.group(1), off[k] + c, off[e]
                k = e
            else: k += 1
def compile(mod, path, root):
    o = OV + '/' + mod.replace('.', '/') + '.olean'
    if os.path.exists(o): os.remove(o)
    try: r = subprocess.run(['lean', '-R', root, '-o', o, path], cwd=root, env=env, capture_output=True, text=True, timeout=CAP + 300)
    except subprocess.TimeoutExpired: return False, 'TIMEOUT'
    return r.returncode == 0, r.stdout + r.stderr
def restore(ms):
    for m in ms:
        p = m.replace('.', '/') + '.olean'
        if os.path.exists(OV + '/' + p): os.remove(OV + '/' + p)
        os.link(LIB + '/' + p, OV + '/' + p)
def enclosing(t, line):
    L = t.split('\n')
    for i in range(min(line, len(L)) - 1, -1, -1):
        m = re.match(r'(?:private |@\[[^\]]*\] ?)*(?:noncomputable )?(theorem|lemma|def|instance|example)\b\s*([^\s:({\[]*)', L[i])
        if m: return m.group(2) if m.group(1) != 'example' else f'example at line {i+1}'
done = set()
if os.path.exists(OUT):
    for l in open(OUT): r = json.loads(l); done.add((r['module'], r['definition']))
jobs = [b for b in bodies()]
random.Random(5).shuffle(jobs)
for n, (m, d, s, e) in enumerate(jobs):
    if n % nw != w or (m, d) in done: continue
    if only is not None and d not in only and f'{m}:{d}' not in only: continue
    f, t, _ = mods[m]
    rnd = random.Random(m + d + os.environ.get('AM_SEED', ''))
    body = t[s:e]
    body_c = re.sub(r'/-.*?-/', lambda x: ' ' * len(x.group()), body, flags=re.S)
    body_c = re.sub(r'--.*', lambda x: ' ' * len(x.group()), body_c)
    cands = []
    for p, r in OPS:
        for x in re.finditer(p, body_c):
            new = x.expand(r) if '\\' in r else r
            cands.append((x.start(), x.end(), new))
    rnd.shuffle(cands)
    got = 0; tries = 0
    for a, b, new in cands:
        if got >= per or tries >= 8 * per: break
        tries += 1
        nt = t[:s + a] + new + t[s + b:]
        mp = f'{WK}/src/' + m.replace('.', '/') + '.lean'; os.makedirs(os.path.dirname(mp), exist_ok=True); open(mp, 'w').write(nt)
        ok, out = compile(m, mp, WK + '/src')
        if not ok:
            restore([m])
            if os.environ.get("AM_DBG"): print(d, repr(t[s+a-20:s+b+20]), repr(new), out[:300])
            continue
        got += 1
        ln = t[:s + a].count('\n') + 1
        edit = f'line {ln}: `{t.split(chr(10))[ln-1].strip()}` becomes `{nt.split(chr(10))[ln-1].strip()}`'
        dep = dependents(m) - {'Verif'}
        word = re.compile(r'(?<!\w)' + re.escape(d.split('.')[-1]) + r'(?!\w)')
        # definitions that use d, transitively, within the model
        names = {d.split('.')[-1]}
        for _ in range(6):
            grow = set()
            for m2, d2, s2, e2 in jobs:
                if m2 == m or m2 in dep:
                    b2 = mods[m2][1][s2:e2]
                    if any(re.search(r'(?<![\w])' + re.escape(x) + r'(?!\w)', b2) for x in names): grow.add(d2.split('.')[-1])
            if grow <= names: break
            names |= grow
        direct = [x for x in dep if word.search(mods[x][1])]
        indirect = [x for x in dep if x not in direct and any(re.search(r'(?<!\w)' + re.escape(y) + r'(?!\w)', mods[x][1]) for y in names)]
        order, seen = [], set()
        for grp in (direct, indirect):
            for x in topo(set().union(*[prereqs(y, dep) for y in grp]) if grp else set()):
                if x not in seen: seen.add(x); order.append(x)
        touched = [m]; failed = []; status = 'survived'; t0 = time.time(); bad = None
        for x in order:
            if time.time() - t0 > CAP: status = 'unfinished'; break
            touched.append(x)
            ok, out = compile(x, mods[x][0], SRC)
            if not ok:
                status = 'killed'; bad = x
                for l in re.findall(r':(\d+):\d+: error', out):
                    nm = enclosing(mods[x][1], int(l))
                    if nm and nm not in failed: failed.append(nm)
                break
        restore(touched)
        rec = dict(module=m, definition=d, edit=edit, status=status, failed_module=bad, theorems_failed=failed, checked=len(touched) - 1, of=len(order), sec=round(time.time() - t0))
        open(OUT, 'a').write(json.dumps(rec, ensure_ascii=False) + '\n')
        print(status, m, d, edit, bad, failed[:4], flush=True)
