#!/usr/bin/env python3
"""Regenerate MANIFEST.json from the theorem names in lean/Verif/Props and tools/notes.json."""
import json, re, glob, os
root = os.path.dirname(os.path.dirname(os.path.abspath(__file__)))
th = {}
docs = {}
for f in sorted(glob.glob(root + '/lean/Verif/Props/*.lean')):
    ns = []
    for m in re.finditer(r'/--((?:(?!-/).)*)-/\s*(?:set_option [^\n]* in\s*)*(?:@\[[^\]]*\]\s*)?theorem (C\d\d\d?_\w+)', open(f).read(), re.S):
        docs[m.group(2)] = ' '.join(m.group(1).split()).replace('**', '')
    for line in open(f):
        if m := re.match(r'namespace (\S+)', line): ns.append(m.group(1))
        elif (m := re.match(r'end (\S+)', line)) and ns and ns[-1] == m.group(1): ns.pop()
        elif m := re.match(r'theorem (C\d\d\d?)_(\w+)', line):
            th.setdefault(m.group(1), []).append('.'.join(ns + [m.group(1) + '_' + m.group(2)]))
notes = json.load(open(root + '/tools/notes.json'))
claims = []
for line in open(root + '/properties.jsonl'):
    p = json.loads(line)['id']
    n = notes.get(p, {})
    t = th.get(p, [])
    if t:
        st = n.get('status') or ('partial' if any(x.endswith(('_partial', '_fails')) for x in t) else 'proved')
    else:
        st = n.get('status', 'not_applicable')
    if t and 'note' not in n:
        bad = [x.split('.')[-1] for x in t if x.endswith(('_partial', '_fails'))]
        if bad:
            n = dict(n, note=' || '.join(f'{b}: {docs[b]}' for b in bad if b in docs))
        else:
            n = dict(n, note='Proved in full on the model (assumptions of DESIGN.md). ' + ' || '.join(
                f"{x.split('.')[-1]}: {docs[x.split('.')[-1]]}" for x in t[:3] if x.split('.')[-1] in docs))
    claims.append({'property': p, 'status': st, 'theorems': t, 'note': n.get('note', '' if t else 'not yet modelled')})
json.dump({'claims': claims}, open(root + '/MANIFEST.json', 'w'), indent=1)
print({s: sum(c['status'] == s for c in claims) for s in ('proved', 'partial', 'not_applicable')})
print([c['property'] for c in claims if not c['theorems']])
