import Verif.Model.Quat
/-!
Model of /repo/ebsdtorch/s2_and_so3/laue_generators.py and of the list primitives of torch / Python
used by the fundamental-zone code.  The tables are transcribed entry by entry.
-/
namespace Verif

/-- Python list indexing `l[i]` (also TorchScript): negative indices count from the end, anything
out of range raises (`none`).  laue_generators.py:51 and :249. -/
def pyIndex {α : Type} (l : List α) (i : ℤ) : Option α :=
  if 0 ≤ i then l[i.toNat]?
  else if -(l.length : ℤ) ≤ i then l[(i + l.length).toNat]? else none

/-- laue_generators.py:38-50 `LAUE_MULTS`. -/
def laueMults : List ℕ := [2, 4, 8, 8, 16, 6, 12, 12, 24, 24, 48]

/-- laue_generators.py:14-51 `get_laue_mult`. -/
def getLaueMult (id : ℤ) : Option ℕ := pyIndex laueMults (id - 1)

/-- laue_generators.py:85 `R2 = 1.0 / (2.0**0.5)`. -/
noncomputable def R2 : ℝ := 1 / Real.sqrt 2

/-- laue_generators.py:86 `R3 = (3.0**0.5) / 2.0`. -/
noncomputable def R3 : ℝ := Real.sqrt 3 / 2

/-- laue_generators.py:88-116 `LAUE_O`. -/
noncomputable def laueO : List Q :=
  [⟨1, 0, 0, 0⟩,
   ⟨0, 0, 0, 1⟩,
   ⟨0, 1, 0, 0⟩,
   ⟨0, 0, 1, 0⟩,
   ⟨R2, 0, 0, R2⟩,
   ⟨R2, 0, 0, -R2⟩,
   ⟨0, R2, R2, 0⟩,
   ⟨0, -R2, R2, 0⟩,
   ⟨1/2, 1/2, -(1/2), 1/2⟩,
   ⟨1/2, 1/2, 1/2, -(1/2)⟩,
   ⟨1/2, 1/2, -(1/2), -(1/2)⟩,
   ⟨1/2, -(1/2), -(1/2), -(1/2)⟩,
   ⟨1/2, -(1/2), 1/2, 1/2⟩,
   ⟨1/2, -(1/2), 1/2, -(1/2)⟩,
   ⟨1/2, -(1/2), -(1/2), 1/2⟩,
   ⟨1/2, 1/2, 1/2, 1/2⟩,
   ⟨R2, R2, 0, 0⟩,
   ⟨R2, -R2, 0, 0⟩,
   ⟨R2, 0, R2, 0⟩,
   ⟨R2, 0, -R2, 0⟩,
   ⟨0, R2, 0, R2⟩,
   ⟨0, -R2, 0, R2⟩,
   ⟨0, 0, R2, R2⟩,
   ⟨0, 0, -R2, R2⟩]

/-- laue_generators.py:117-133 `LAUE_T`. -/
noncomputable def laueT : List Q :=
  [⟨1, 0, 0, 0⟩,
   ⟨0, 0, 0, 1⟩,
   ⟨0, 1, 0, 0⟩,
   ⟨0, 0, 1, 0⟩,
   ⟨1/2, 1/2, -(1/2), 1/2⟩,
   ⟨1/2, 1/2, 1/2, -(1/2)⟩,
   ⟨1/2, 1/2, -(1/2), -(1/2)⟩,
   ⟨1/2, -(1/2), -(1/2), -(1/2)⟩,
   ⟨1/2, -(1/2), 1/2, 1/2⟩,
   ⟨1/2, -(1/2), 1/2, -(1/2)⟩,
   ⟨1/2, -(1/2), -(1/2), 1/2⟩,
   ⟨1/2, 1/2, 1/2, 1/2⟩]

/-- laue_generators.py:135-151 `LAUE_D6`. -/
noncomputable def laueD6 : List Q :=
  [⟨1, 0, 0, 0⟩,
   ⟨1/2, 0, 0, R3⟩,
   ⟨1/2, 0, 0, -R3⟩,
   ⟨0, 0, 0, 1⟩,
   ⟨R3, 0, 0, 1/2⟩,
   ⟨R3, 0, 0, -(1/2)⟩,
   ⟨0, 1, 0, 0⟩,
   ⟨0, -(1/2), R3, 0⟩,
   ⟨0, 1/2, R3, 0⟩,
   ⟨0, R3, 1/2, 0⟩,
   ⟨0, -R3, 1/2, 0⟩,
   ⟨0, 0, 1, 0⟩]

/-- laue_generators.py:153-163 `LAUE_C6`. -/
noncomputable def laueC6 : List Q :=
  [⟨1, 0, 0, 0⟩,
   ⟨1/2, 0, 0, R3⟩,
   ⟨1/2, 0, 0, -R3⟩,
   ⟨0, 0, 0, 1⟩,
   ⟨R3, 0, 0, 1/2⟩,
   ⟨R3, 0, 0, -(1/2)⟩]

/-- laue_generators.py:165-175 `LAUE_D3`. -/
noncomputable def laueD3 : List Q :=
  [⟨1, 0, 0, 0⟩,
   ⟨1/2, 0, 0, R3⟩,
   ⟨1/2, 0, 0, -R3⟩,
   ⟨0, 1, 0, 0⟩,
   ⟨0, -(1/2), R3, 0⟩,
   ⟨0, 1/2, R3, 0⟩]

/-- laue_generators.py:177-184 `LAUE_C3`. -/
noncomputable def laueC3 : List Q :=
  [⟨1, 0, 0, 0⟩,
   ⟨1/2, 0, 0, R3⟩,
   ⟨1/2, 0, 0, -R3⟩]

/-- laue_generators.py:186-198 `LAUE_D4`. -/
noncomputable def laueD4 : List Q :=
  [⟨1, 0, 0, 0⟩,
   ⟨0, 0, 0, 1⟩,
   ⟨0, 1, 0, 0⟩,
   ⟨0, 0, 1, 0⟩,
   ⟨R2, 0, 0, R2⟩,
   ⟨R2, 0, 0, -R2⟩,
   ⟨0, R2, R2, 0⟩,
   ⟨0, -R2, R2, 0⟩]

/-- laue_generators.py:200-208 `LAUE_C4`. -/
noncomputable def laueC4 : List Q :=
  [⟨1, 0, 0, 0⟩,
   ⟨0, 0, 0, 1⟩,
   ⟨R2, 0, 0, R2⟩,
   ⟨R2, 0, 0, -R2⟩]

/-- laue_generators.py:210-218 `LAUE_D2`. -/
noncomputable def laueD2 : List Q :=
  [⟨1, 0, 0, 0⟩,
   ⟨0, 0, 0, 1⟩,
   ⟨0, 1, 0, 0⟩,
   ⟨0, 0, 1, 0⟩]

/-- laue_generators.py:220-226 `LAUE_C2`. -/
noncomputable def laueC2 : List Q :=
  [⟨1, 0, 0, 0⟩,
   ⟨0, 0, 0, 1⟩]

/-- laue_generators.py:228-233 `LAUE_C1`. -/
noncomputable def laueC1 : List Q :=
  [⟨1, 0, 0, 0⟩]

/-- laue_generators.py:235-247 `LAUE_GROUPS`. -/
noncomputable def laueGroups : List (List Q) :=
  [laueC1, laueC2, laueD2, laueC4, laueD4, laueC3, laueD3, laueC6, laueD6, laueT, laueO]

/-- laue_generators.py:54-249 `laue_elements`. -/
noncomputable def laueElements (id : ℤ) : Option (List Q) := pyIndex laueGroups (id - 1)

end Verif
