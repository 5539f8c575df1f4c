#!/usr/bin/env python3
"""Copies the Weickenmeier-Kohl tables of /repo into lean/Verif/Model/WkTable.lean (integers, units of 1e-5)."""
import re
P='/repo/ebsdtorch/crystallography/scattering_factors/scattering_factors_WK.py'
s=open(P).read()
def tab(n):
    i=s.index(n+' ='); j=s.index('\n)',i)
    a=s[:i].count('\n')+1; b=s[:j].count('\n')+2
    rows=re.findall(r'\[\s*([-\d.,\s]+?)\s*\]',s[i:j])
    return [[round(float(x)*100000) for x in r.split(',') if x.strip()] for r in rows],a,b
o=['/-!','Generated by tools/gen_wk.py: the parameter tables of the Weickenmeier-Kohl fit, in units of 1e-5,',
 '/repo/ebsdtorch/crystallography/scattering_factors/scattering_factors_WK.py (the same tables are in scattering_factors_Hybrid.py).','-/','namespace Verif.Scat','']
for n,m in (('wk_A_param','wkA'),('wk_B_param','wkB')):
    t,a,b=tab(n); assert len(t)==98 and all(len(r)==4 for r in t)
    o.append(f'/-- scattering_factors_WK.py:{a}-{b} `{n}`, times 100000; row `i` belongs to element `i + 1`. -/')
    o.append(f'def {m} : List (List Int) :=')
    o.append('  ['+',\n   '.join('['+', '.join(map(str,r))+']' for r in t)+']\n')
o.append('end Verif.Scat')
open('/verif/lean/Verif/Model/WkTable.lean','w').write('\n'.join(o)+'\n')
