import ast
src=open('/repo/ebsdtorch/crystallography/groups.py').read()
L=src.split('\n')
G={};LN={}
for n in ast.parse(src).body:
    if isinstance(n,ast.Assign):
        try: G[n.targets[0].id]=ast.literal_eval(n.value); LN[n.targets[0].id]=(n.lineno,n.end_lineno)
        except Exception: pass
def lst(name,ty,f,per):
    v=G[name]; a,b=LN[name]
    out=f'/-- groups.py:{a}-{b} `{name}`. -/\ndef %s : List {ty} := [\n'
    rows=[', '.join(f(x) for x in v[i:i+per]) for i in range(0,len(v),per)]
    return out+',\n'.join('  '+r for r in rows)+']\n'
s=lambda x:'"'+x+'"'
o='''import Mathlib.Data.Int.Notation
import Mathlib.Data.List.Basic
/-!
Model of /repo/ebsdtorch/crystallography/groups.py: tables, generator strings and their closure.
The tables are transcribed mechanically (tools/gen_groups.py).
Simplification: translations are integers counting 24ths of a cell edge (every entry of `trans_map` is a
multiple of 1/24), so the float tolerances `eps = 5e-4` are exact comparisons of integers.
-/
namespace Verif.SG

'''
o+=lst('sg_two_settings','ℕ',str,12)%'twoSettings'+'\n'
o+=lst('sg_names','String',s,4)%'names'+'\n'
o+=lst('sg_gen_strings','String',s,2)%'genStrings'+'\n'
o+=lst('sg_ords','ℕ',str,30)%'ords'+'\n'
o+=lst('sg_xt_beg','ℕ',str,30)%'xtBeg'+'\n'
o+=lst('sg_pg_beg','ℕ',str,16)%'pgBeg'+'\n'
o+=lst('sg_symmorphic','ℕ',str,20)%'symmorphic'+'\n'
o+=lst('pg_to_laue','ℕ',str,20)%'pgToLaue'+'\n'
o+=r'''
/-- The exceptions raised by this module and by the `Cell` class. -/
inductive Err | keyError | indexError | valueError | runtimeError
  deriving DecidableEq, Repr

/-- The 3×3 rotation block of a Seitz matrix. -/
structure Rot where
  (a00 a01 a02 a10 a11 a12 a20 a21 a22 : ℤ)
  deriving DecidableEq, Repr

/-- A 4×4 Seitz matrix whose bottom row is `(0, 0, 0, w)`: rotation block, translation column `(x, y, z)` in
24ths, and the corner entry `w`. -/
structure Op where
  r : Rot
  (x y z w : ℤ)
  deriving DecidableEq, Repr

/-- groups.py:250-262 `trans_map`, in 24ths; `none` is a missing key. -/
def transMap (c : Char) : Option ℤ :=
  if c = 'A' then some 4 else if c = 'B' then some 6 else if c = 'C' then some 8 else if c = 'D' then some 12
  else if c = 'E' then some 16 else if c = 'F' then some 18 else if c = 'G' then some 20
  else if c = 'O' then some 0 else if c = 'X' then some (-9) else if c = 'Y' then some (-6)
  else if c = 'Z' then some (-3) else none

/-- groups.py:265-280 `rot_matrices`; `none` is a missing key. -/
def rotMap (c : Char) : Option Rot :=
  if c = 'a' then some ⟨1, 0, 0, 0, 1, 0, 0, 0, 1⟩
  else if c = 'b' then some ⟨-1, 0, 0, 0, -1, 0, 0, 0, 1⟩
  else if c = 'c' then some ⟨-1, 0, 0, 0, 1, 0, 0, 0, -1⟩
  else if c = 'd' then some ⟨0, 0, 1, 1, 0, 0, 0, 1, 0⟩
  else if c = 'e' then some ⟨0, 1, 0, 1, 0, 0, 0, 0, -1⟩
  else if c = 'f' then some ⟨0, -1, 0, -1, 0, 0, 0, 0, -1⟩
  else if c = 'g' then some ⟨0, -1, 0, 1, 0, 0, 0, 0, 1⟩
  else if c = 'h' then some ⟨-1, 0, 0, 0, -1, 0, 0, 0, -1⟩
  else if c = 'i' then some ⟨1, 0, 0, 0, 1, 0, 0, 0, -1⟩
  else if c = 'j' then some ⟨1, 0, 0, 0, -1, 0, 0, 0, 1⟩
  else if c = 'k' then some ⟨0, -1, 0, -1, 0, 0, 0, 0, 1⟩
  else if c = 'l' then some ⟨0, 1, 0, 1, 0, 0, 0, 0, 1⟩
  else if c = 'm' then some ⟨0, 1, 0, -1, 0, 0, 0, 0, -1⟩
  else if c = 'n' then some ⟨0, -1, 0, 1, -1, 0, 0, 0, 1⟩
  else none

/-- The 3×3 product (used inside the 4×4 products at groups.py:331-334 and 372). -/
def Rot.mul (A B : Rot) : Rot :=
  ⟨A.a00 * B.a00 + A.a01 * B.a10 + A.a02 * B.a20, A.a00 * B.a01 + A.a01 * B.a11 + A.a02 * B.a21,
   A.a00 * B.a02 + A.a01 * B.a12 + A.a02 * B.a22,
   A.a10 * B.a00 + A.a11 * B.a10 + A.a12 * B.a20, A.a10 * B.a01 + A.a11 * B.a11 + A.a12 * B.a21,
   A.a10 * B.a02 + A.a11 * B.a12 + A.a12 * B.a22,
   A.a20 * B.a00 + A.a21 * B.a10 + A.a22 * B.a20, A.a20 * B.a01 + A.a21 * B.a11 + A.a22 * B.a21,
   A.a20 * B.a02 + A.a21 * B.a12 + A.a22 * B.a22⟩

/-- The 4×4 product of two Seitz matrices (groups.py:331-334 and 372). -/
def Op.mul (A B : Op) : Op :=
  ⟨A.r.mul B.r,
   A.r.a00 * B.x + A.r.a01 * B.y + A.r.a02 * B.z + A.x * B.w,
   A.r.a10 * B.x + A.r.a11 * B.y + A.r.a12 * B.z + A.y * B.w,
   A.r.a20 * B.x + A.r.a21 * B.y + A.r.a22 * B.z + A.z * B.w,
   A.w * B.w⟩

/-- Python's `float(torch.fmod(k + x, 1.0))` in 24ths: C remainder (sign of the dividend) of `24 k + x` by 24. -/
def fmod1 (k x : ℤ) : ℤ := (24 * k + x).tmod 24

/-- groups.py:354-392 `matmul_trans_mod`.  The two snapping steps (to 0 from within eps of 0 or 1) change
nothing on multiples of 1/24 that are already reduced. -/
def mulTransMod (A B : Op) : Op :=
  let C := A.mul B
  ⟨C.r, fmod1 1000 C.x, fmod1 1000 C.y, fmod1 1000 C.z, C.w⟩

/-- groups.py:395-402 `unique_rows`: keep a row, drop every later row that is close to it, go on with the next
row that is left. -/
def uniqueRows {α : Type*} (close : α → α → Bool) : List α → List α
  | [] => []
  | a :: l => a :: uniqueRows close (l.filter (fun b => !close a b))
termination_by l => l.length
decreasing_by
  simp only [List.length_unattach, List.length_cons]
  refine Nat.lt_succ_of_le (Nat.le_trans (List.length_filter_le _ _) ?_)
  simp

/-- The identity Seitz matrix (groups.py:286). -/
def Op.one : Op := ⟨⟨1, 0, 0, 0, 1, 0, 0, 0, 1⟩, 0, 0, 0, 1⟩

/-- groups.py:292-295: the inversion. -/
def Op.inversion : Op := ⟨⟨-1, 0, 0, 0, -1, 0, 0, 0, -1⟩, 0, 0, 0, 1⟩

/-- groups.py:298-307: one generator from its four letters. -/
def readGen (t : List Char) : Except Err Op :=
  match t with
  | [c, x, y, z] =>
    match rotMap c, transMap x, transMap y, transMap z with
    | some r, some a, some b, some d => .ok ⟨r, a, b, d, 1⟩
    | _, _, _, _ => .error .keyError
  | _ => .error .indexError

/-- groups.py:298-307: the loop over the `n` generators that start at the character list `s`. -/
def readGens : ℕ → List Char → Except Err (List Op)
  | 0, _ => .ok []
  | n + 1, s => (readGen (s.take 4)).bind fun g => (readGens n (s.drop 4)).map fun l => g :: l

/-- groups.py:312-349: the change of origin, `T(t) · g · T(-t)`, for the slice `t` of the generator string,
followed by the reduction of the *whole* last column. -/
def shiftOrigin (t : List Char) (gens : List Op) : Except Err (List Op) :=
  match t with
  | [x, y, z] =>
    match transMap x, transMap y, transMap z with
    | some a, some b, some c =>
      let fwd : Op := ⟨Op.one.r, -a, -b, -c, 1⟩
      let bwd : Op := ⟨Op.one.r, a, b, c, 1⟩
      .ok (gens.map fun g =>
        let h := bwd.mul (g.mul fwd)
        ⟨h.r, fmod1 1000 h.x, fmod1 1000 h.y, fmod1 1000 h.z, fmod1 1000 (24 * h.w) / 24⟩)
    | _, _, _ => .error .keyError
  | _ => .error .indexError

/-- groups.py:232-351 `read_sg_gen_string` (Python's negative indices, for `sg ≤ 0`, are not modelled:
they are an index error here). -/
def readGenString (sg setting : ℕ) : Except Err (List Op) :=
  match genStrings[sg - 1]? with
  | none => .error .indexError
  | some str =>
    if sg = 0 then .error .indexError else
    match str.toList with
    | inv :: num :: rest =>
      let n := num.toNat - 48
      (readGens n rest).bind fun l =>
        let gens := Op.one :: (if inv = '1' then Op.inversion :: l else l)
        match rest[4 * n]? with
        | none => .error .indexError
        | some flag =>
          if flag ≠ '0' ∧ setting = 2 then shiftOrigin ((rest.drop (4 * n)).take 3) gens else .ok gens
    | _ => .error .indexError

/-- groups.py:431-452, one round: all pairwise products, without repetitions, and those of them whose top three
rows are not yet present are appended.  The flag says whether any were new. -/
def closeRound (gens : List Op) : List Op × Bool :=
  let candidates := gens.flatMap fun a => gens.map fun b => mulTransMod a b
  let uniq := uniqueRows (fun a b => decide (a = b)) candidates
  let new := uniq.filter fun c => !(gens.any fun g => decide (c.r = g.r ∧ c.x = g.x ∧ c.y = g.y ∧ c.z = g.z))
  (gens ++ new, !new.isEmpty)

/-- groups.py:427-452: at most `n` rounds, with `break` when nothing is new.  (The `else` branch of
`depth < 10` is unreachable and not modelled.) -/
def closeLoop : ℕ → List Op → List Op
  | 0, gens => gens
  | n + 1, gens => let p := closeRound gens; if p.2 then closeLoop n p.1 else gens

/-- groups.py:427-429: the space groups closed with three rounds. -/
def deepGroups : List ℕ := [69, 202, 203, 204, 206, 225, 226, 227, 228, 229, 230]

/-- groups.py:476: `gens[:, :, 3] = torch.fmod(100 + gens[:, :, 3], 1.0)` on the whole last column, corner
entry included. -/
def finalMod (g : Op) : Op := 
  ⟨g.r, fmod1 100 g.x, fmod1 100 g.y, fmod1 100 g.z, fmod1 100 (24 * g.w) / 24⟩

/-- groups.py:405-478 `sg_operators`. -/
def sgOperators (sg setting : ℕ) : Except Err (List Op) :=
  (readGenString sg setting).bind fun gens =>
    match ords[sg - 1]? with
    | none => .error .indexError
    | some _ => .ok ((closeLoop (if sg ∈ deepGroups then 3 else 2) gens).map finalMod)

end Verif.SG
'''
open('/verif/lean/Verif/Model/Groups.lean','w').write(o)
for k in LN: print(k,LN[k])
