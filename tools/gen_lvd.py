"""Generate lean/Verif/Model/LvdTable.lean from the parameter table of scattering_factors_LVD_TCB.py (run with the path of /repo)."""
import re, sys
from fractions import Fraction as F
repo = sys.argv[1] if len(sys.argv) > 1 else '/repo'
d = repo + '/ebsdtorch/crystallography/scattering_factors/'
num = r'[-+]?\d+\.\d+(?:[eE][-+]?\d+)?'
def rows(fn):
    txt = open(d + fn).read()
    txt = txt[txt.index('fit_LVD = torch.tensor('):]
    txt = txt[:txt.index('dtype')]
    return [re.findall(num, m.group(1)) for m in re.finditer(r'\[\s*((?:' + num + r'\s*,\s*){9}' + num + r')\s*,?\s*\]', txt)]
A = rows('scattering_factors_LVD_TCB.py')
assert A == rows('scattering_factors_Hybrid.py') and len(A) == 102
def sc(x):
    v = F(x) * 10 ** 23
    assert v.denominator == 1
    return str(v.numerator)
out = ['import Verif.Model.Scatter', '/-!', 'Generated by tools/gen_lvd.py: the parameter table of the fit of Lobato and Van Dyck, in units of 1e-23,',
 '/repo/ebsdtorch/crystallography/scattering_factors/scattering_factors_LVD_TCB.py (the same table is in scattering_factors_Hybrid.py:285-388).', '-/',
 'namespace Verif.Scat', '', '/-- scattering_factors_LVD_TCB.py:60-163 `fit_LVD`, times 10^23; row `i` belongs to element `i + 1`: five amplitudes, five widths. -/',
 'def lvdTable : List (List Int) :=']
for i, r in enumerate(A):
    out.append(('  [' if i == 0 else '   ') + '[' + ', '.join(map(sc, r)) + ']' + (',' if i < len(A) - 1 else ']'))
out += ['', '/-- scattering_factors_LVD_TCB.py:190-198, in `eval_LVD_fit`: the parameters of row `i`. -/',
 'noncomputable def lvdRow (i : ℕ) : Lob :=',
 '  ⟨fun k => (((lvdTable.getD i []).getD k 0 : ℤ) : ℝ) / 10 ^ 23, fun k => (((lvdTable.getD i []).getD (5 + k) 0 : ℤ) : ℝ) / 10 ^ 23⟩',
 '', 'end Verif.Scat', '']
open('/verif/lean/Verif/Model/LvdTable.lean', 'w').write('\n'.join(out))
