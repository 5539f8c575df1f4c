#!/usr/bin/env python3
"""Check every `file.py:a-b `name`` citation in the Lean model against /repo: report names whose `def`
does not start inside (or 12 lines before, for decorators) the cited range."""
import re, glob, os, sys, ast
files = {}
for f in glob.glob('/repo/**/*.py', recursive=True):
    files.setdefault(os.path.basename(f), []).append(f)
defs = {}
for b, fs in files.items():
    for f in fs:
        try: t = ast.parse(open(f, encoding='utf8').read())
        except Exception: continue
        for n in ast.walk(t):
            if isinstance(n, (ast.FunctionDef, ast.ClassDef)):
                s = min([n.lineno] + [d.lineno for d in n.decorator_list])
                defs.setdefault((b, n.name), []).append((s, n.lineno, n.end_lineno))
bad = ok = 0
for lf in sorted(glob.glob(os.path.dirname(os.path.dirname(os.path.abspath(__file__))) + '/lean/Verif/**/*.lean', recursive=True)):
    src = open(lf, encoding='utf8').read()
    for m in re.finditer(r'(\w+\.py):(\d+)-(\d+)\s+`(\w+)`', src):
        b, a, e, nm = m.group(1), int(m.group(2)), int(m.group(3)), m.group(4)
        d = defs.get((b, nm))
        if not d: continue
        if any(s - 1 <= a <= e2 and e <= e2 + 2 and s <= e for s, l, e2 in d) and any(a <= l for s, l, e2 in d):
            ok += 1
        else:
            bad += 1
            print(os.path.basename(lf), src[:m.start()].count('\n') + 1, m.group(0).replace('\n', ' '), '-> actual', d)
print('ok', ok, 'bad', bad)
