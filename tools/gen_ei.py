#!/usr/bin/env python3
"""Generates lean/Verif/Lemmas/EiData.lean: the coefficients of `expi` (read from Model/Scatter.lean) as integer lists and the
polynomial certificates for them."""
import re, math
from fractions import Fraction as F
from math import factorial
from decimal import Decimal as D, getcontext
getcontext().prec = 80
src = open('/verif/lean/Verif/Model/Scatter.lean').read()
def lst(n):
    m = re.search(r'def ' + n + r' : List ℝ :=\s*\[(.*?)\]', src, re.S)
    return [F(x.strip()) for x in m.group(1).split(',')]
T = {n: lst(n) for n in ['e1P','e1Q','e1P2','e1Q2','eiP','eiQ','eiP2','eiQ2','eiP3','eiQ3','eiP4','eiQ4']}
R = F('0.372507410781366634461991866580119133535689497771654051555657435242200120636201854384926049951548942392')
C = F('0.57721566490153286060651209008240243')
def add(p, q):
    n = max(len(p), len(q)); return [(p[i] if i < len(p) else 0) + (q[i] if i < len(q) else 0) for i in range(n)]
def smul(c, p): return [c * a for a in p]
def mul(p, q):
    if not p or not q: return []
    r = [0] * (len(p) + len(q) - 1)
    for i, a in enumerate(p):
        for j, b in enumerate(q): r[i + j] += a * b
    return r
def dv(p): return [i * p[i] for i in range(1, len(p))] + [0]
def comp(p, lin):
    r = []
    for a in reversed(p): r = add(mul(r, lin), [a])
    return r
def ein(N, sg=1): return [F(0)] + [F(sg ** k, k * factorial(k)) for k in range(1, N + 1)]
def den(*ps):
    L = 1
    for p in ps:
        for c in p: L = L * F(c).denominator // math.gcd(L, F(c).denominator)
    return L
def ints(p, L):
    r = [F(c) * L for c in p]; assert all(x.denominator == 1 for x in r); return [int(x) for x in r]

# --- expressions -----------------------------------------------------------------------------------------------------
class E:
    def __init__(s, kind, *a): s.k = kind; s.a = a
def lit(name): return E('lit', name)
ENV = {}
out = []
def elen(e):
    if e.k == 'lit': return len(ENV[e.a[0]])
    if e.k == 'add': return max(elen(e.a[0]), elen(e.a[1]))
    if e.k == 'smul': return elen(e.a[1])
    return elen(e.a[0]) + elen(e.a[1])
def hom(n, d, p):
    r, dd = 0, 1
    for c in reversed(p):
        d2 = d * dd; r, dd = c * d2 + n * r, d2
    return r
def nrm(e, a, b, m):
    if e.k == 'lit': return hom(abs(a) + abs(b), 2 * m, [abs(c) for c in ENV[e.a[0]]])
    if e.k == 'add':
        M = elen(e)
        return sum(nrm(f, a, b, m) * (2 * m) ** (M - elen(f)) for f in e.a)
    if e.k == 'smul': return abs(e.a[0]) * nrm(e.a[1], a, b, m)
    return nrm(e.a[0], a, b, m) * nrm(e.a[1], a, b, m)
def poly(e):
    if e.k == 'lit': return ENV[e.a[0]]
    if e.k == 'add': return add(poly(e.a[0]), poly(e.a[1]))
    if e.k == 'smul': return smul(e.a[0], poly(e.a[1]))
    return mul(poly(e.a[0]), poly(e.a[1]))
def mob(p, a, b, m):
    r, d = [], [1]
    for c in reversed(p):
        d2 = mul([m, m], d); r = add(smul(c, d2), mul([a, b], r)); d = d2
    return r
def lean(e):
    if e.k == 'lit': return '(.lit %s)' % e.a[0]
    if e.k == 'add': return '(.add %s %s)' % (lean(e.a[0]), lean(e.a[1]))
    if e.k == 'smul': return '(.smul (%d) %s)' % (e.a[0], lean(e.a[1]))
    return '(.mul %s %s)' % (lean(e.a[0]), lean(e.a[1]))
def wrap(s, w=118):
    o, l = [], ''
    for t in s.split(' '):
        if len(l) + len(t) + 1 > w: o.append(l); l = '   ' + t
        else: l = (l + ' ' + t) if l else t
    o.append(l); return '\n'.join(o)
def defl(name, p, doc):
    ENV[name] = p
    out.append('/-- %s -/\ndef %s : List ℤ :=\n' % (doc, name) + wrap('  [' + ', '.join(str(x) for x in p) + ']') + '\n')
def defe(name, e):
    out.append('def %s : RE :=\n' % name + wrap('  ' + lean(e)) + '\n')
def cert(name, ename, e, a, b, m):
    q = mob(poly(e), a, b, m)
    assert all(c >= 0 for c in q), (name, a, b)
    k = (2 * nrm(e, a, b, m)).bit_length() + 1
    out.append('theorem %s : (%s.toPE (%d) (%d) %d).ok %d %d = true := by decide +kernel\n' % (name, ename, a, b, m, k, elen(e) + 2))
def both(name, mk, pieces):
    for nm, sg in (('p', 1), ('m', -1)):
        e = mk(sg)
        defe(name + nm, e)
        for i, (a, b, m) in enumerate(pieces): cert('%s%s_ok%d' % (name, nm, i), name + nm, e, a, b, m)
def positive(name, q, pieces, c=1):
    e = E('add', lit(q), E('smul', -c, lit('one')))
    defe(name, e)
    for i, (a, b, m) in enumerate(pieces): cert('%s_ok%d' % (name, i), name, e, a, b, m)

defl('one', [1], 'the constant polynomial')
# (a) 0 <= y <= 1
S = den(T['e1P'], T['e1Q'])
defl('aP', ints(T['e1P'], S), '`e1P` times %d' % S)
defl('aQ', ints(T['e1Q'], S), '`e1Q` times %d' % S)
Ea = add([C - F('0.66373538970947265625'), F(1)], ein(20, -1))
dE = den(Ea)
defl('aE', ints(Ea, dE), '`y - 0.66373538970947265625 + c + sum of the first 20 terms`, times %d' % dE)
print('a', S, dE)
pa = [(0, 1001, 1000)]
positive('aQpos', 'aQ', pa)
both('aFit', lambda sg: E('add', E('smul', dE, lit('aQ')), E('smul', sg * 10 ** 16, E('add', E('smul', dE, lit('aP')), E('mul', lit('aQ'), lit('aE'))))), pa)
# (b) 0 <= x <= 6
P = comp(T['eiP'], [F(-1), F(1, 3)]); Q = comp(T['eiQ'], [F(-1), F(1, 3)])
S = den(P, Q)
S0 = den(T['eiP'], T['eiQ'])
defl('bP0', ints(T['eiP'], S0), '`eiP` times %d' % S0)
defl('bQ0', ints(T['eiQ'], S0), '`eiQ` times %d' % S0)
print('b0', S0, F(S, S0))
defl('bP', ints(P, S), '`eiP` at `x / 3 - 1`, times %d' % S)
defl('bQ', ints(Q, S), '`eiQ` at `x / 3 - 1`, times %d' % S)
lr = F(str(D('0.372507410781366634461991866580119133535689497771654051555657435242200120636201854384926049951548942392').ln()))
lr = F(int(lr * 10 ** 22), 10 ** 22)
print('log r', D(lr.numerator) / D(lr.denominator))
Eb = add([C + lr], ein(42))
dE = den(Eb)
defl('bE', ints(Eb, dE), '`c + log r + sum of the first 42 terms`, times %d' % dE)
dR = R.denominator
defl('bX', ints([-R, F(1)], dR), '`x - r`, times %d' % dR)
print('b', S, dE, dR)
pb = [(0, 3000, 1000), (3000, 6001, 1000)]
positive('bQpos', 'bQ', [(0, 6001, 1000)])
both('bFit', lambda sg: E('add', E('smul', dE * dR, lit('bQ')), E('smul', sg * 2 * 10 ** 14,
    E('add', E('smul', dE, E('mul', lit('bP'), lit('bX'))), E('smul', -dR, E('mul', lit('bQ'), lit('bE')))))), pb)
# (c) w = 1 / y
P = T['e1P2']; Q = T['e1Q2']; S = den(P, Q)
defl('cN', ints(mul([F(0), F(1)], add(P, Q)), S), '`w (e1P2 + e1Q2)`, times %d' % S)
defl('cQ', ints(Q, S), '`e1Q2`, times %d' % S)
defl('cP', ints(P, S), '`e1P2`, times %d' % S)
defl('cN1', dv(ENV['cN']), 'derivative'); defl('cQ1', dv(ENV['cQ']), 'derivative')
defl('var', [0, 1], 'the variable')
print('c', S)
pc = [(0, 256, 1024), (256, 512, 1024), (512, 1025, 1024)]
positive('cQpos', 'cQ', [(0, 1025, 1024)])
def W(sg):
    NQ = E('mul', lit('cN'), lit('cQ')); Q2 = E('mul', lit('cQ'), lit('cQ'))
    Wr = E('add', E('mul', lit('cN1'), lit('cQ')), E('smul', -1, E('mul', lit('cN'), lit('cQ1'))))
    Z = E('add', E('mul', lit('var'), Q2), E('smul', -1, E('add', NQ, E('mul', E('mul', lit('var'), lit('var')), Wr))))
    return E('add', Q2, E('smul', sg * 10 ** 15, Z))
both('cFit', W, pc)
# (d)
for nm, P, Q, k, ctr, hw, n, pieces in (
        ('d', T['eiP2'], T['eiQ2'], F('1.158985137939453125'), 8, 2, 30, [(-1024, 0, 1024), (0, 1025, 1024)]),
        ('e', T['eiP3'], T['eiQ3'], F('1.086973190307617188'), 15, 5, 44, [(-1024, 1025, 1024)])):
    Nm = add(smul(k, Q), P); S = den(Nm, Q)
    defl(nm + 'N', ints(Nm, S), 'numerator of the factor of `exp x / x`, times %d' % S)
    defl(nm + 'Q', ints(Q, S), 'its denominator, times %d' % S)
    defl(nm + 'P', ints(P, S), 'numerator of the fit, times %d' % S)
    print(nm, 'k', ints([k], S))
    defl(nm + 'N1', dv(ENV[nm + 'N']), 'derivative'); defl(nm + 'Q1', dv(ENV[nm + 'Q']), 'derivative')
    defl(nm + 'X', [ctr, hw], '`x` in terms of the variable of the fit')
    r = D(-ctr).exp(); r = F(int(F(str(r)) * 10 ** 30), 10 ** 30)
    TT = [r * F((-hw) ** i, factorial(i)) for i in range(n)]
    dT = den(TT)
    defl(nm + 'T', ints(TT, dT), 'approximation of `exp (-x)`, times %d' % dT)
    print(nm, S, r.numerator, r.denominator, dT, n)
    positive(nm + 'Qpos', nm + 'Q', [(-1024, 1025, 1024)])
    def W(sg):
        N_, Q_, N1, Q1, X = (lit(nm + t) for t in ('N', 'Q', 'N1', 'Q1', 'X'))
        Q2 = E('mul', Q_, Q_)
        wr = E('add', E('mul', N1, Q_), E('smul', -1, E('mul', N_, Q1)))
        # hw * [N Q (X - 1) - X Q2] + X wr + hw X X Q2 T
        Z = E('add', E('smul', hw, E('add', E('mul', E('mul', N_, Q_), E('add', X, E('smul', -1, lit('one')))), E('smul', -1, E('mul', X, Q2)))), E('mul', X, wr))
        ZT = E('smul', hw, E('mul', E('mul', E('mul', X, X), Q2), lit(nm + 'T')))
        return E('add', E('smul', dT * hw, E('mul', X, Q2)), E('smul', sg * 10 ** 14, E('add', E('smul', dT, Z), ZT)))
    both(nm + 'Fit', W, pieces)
head = '''import Verif.Lemmas.PolyOn
/-!
Generated by tools/gen_ei.py: the rational approximations of `expi` as integer polynomials, and certificates for their errors.
-/
namespace Verif.EiFit
open Verif.PolyCert

'''
open('/verif/lean/Verif/Lemmas/EiData.lean', 'w').write(head + '\n'.join(out) + '\nend Verif.EiFit\n')
