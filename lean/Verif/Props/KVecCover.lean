import Verif.Lemmas.KVecGrid
import Verif.Model.Cell
/-!
C91: which directions the k-vector grid samples, up to the symmetry of the crystal.
-/
namespace Verif.KV
open Real Verif.Spec Verif.Spec.Dir

section
variable {G : List (V → V)}

theorem u1 : U 1 := .inl rfl
theorem um : U (-1) := .inr rfl

theorem has_inv (h : inv ∈ G) : Has G false (-1) (-1) (-1) := has_gen h um um um (by intro v; simp [inv, sp])
theorem has_z2 (h : z2 ∈ G) : Has G false (-1) (-1) 1 := has_gen h um um u1 (by intro v; simp [z2, sp])
theorem has_y2 (h : y2 ∈ G) : Has G false (-1) 1 (-1) := has_gen h um u1 um (by intro v; simp [y2, sp])
theorem has_x2 (h : x2 ∈ G) : Has G false 1 (-1) (-1) := has_gen h u1 um um (by intro v; simp [x2, sp])
theorem has_my (h : my ∈ G) : Has G false 1 (-1) 1 := has_gen h u1 um u1 (by intro v; simp [my, sp])
theorem has_z4 (h : z4 ∈ G) : Has G true (-1) 1 1 := has_gen h um u1 u1 (by intro v; simp [z4, sp])
theorem has_b4 (h : b4 ∈ G) : Has G true 1 (-1) (-1) := has_gen h u1 um um (by intro v; simp [b4, sp])
theorem has_d2 (h : d2 ∈ G) : Has G true 1 1 (-1) := has_gen h u1 u1 um (by intro v; simp [d2, sp])
theorem has_sw (h : sw ∈ G) : Has G true 1 1 1 := has_gen h u1 u1 u1 (by intro v; simp [sw, sp])

/-- the index condition of a square sampling type -/
def Reg (st : ℕ) (i j : ℤ) : Prop :=
  match st with
  | 1 | 2 => True
  | 3 => 0 ≤ i
  | 4 => 0 ≤ j
  | 5 | 6 => 0 ≤ i ∧ 0 ≤ j
  | 7 | 9 => 0 ≤ i ∧ 0 ≤ j ∧ j ≤ i
  | 8 => 0 ≤ i ∧ -i ≤ j ∧ j ≤ i
  | _ => False

theorem keep_of_reg {st : ℕ} {i j : ℤ} (h : Reg st i j) : keep st (i, j) = true := by
  match st, h with
  | 1, _ => simp [keep]
  | 2, _ => simp [keep]
  | 3, h => simpa [keep, Reg] using h
  | 4, h => simpa [keep, Reg] using h
  | 5, h => simpa [keep, Reg] using h
  | 6, h => simpa [keep, Reg] using h
  | 7, h => simpa [keep, Reg] using h
  | 8, h => simpa [keep, Reg, abs_le] using h
  | 9, h => simpa [keep, Reg] using h

theorem reg_of_keep {st : ℕ} (h1 : 1 ≤ st) (h9 : st ≤ 9) {i j : ℤ} (h : keep st (i, j) = true) : Reg st i j := by
  match st, h1, h9, h with
  | 1, _, _, _ => trivial
  | 2, _, _, _ => trivial
  | 3, _, _, h => simpa [keep, Reg] using h
  | 4, _, _, h => simpa [keep, Reg] using h
  | 5, _, _, h => simpa [keep, Reg] using h
  | 6, _, _, h => simpa [keep, Reg] using h
  | 7, _, _, h => simpa [keep, Reg] using h
  | 8, _, _, h => simpa [keep, Reg, abs_le] using h
  | 9, _, _, h => simpa [keep, Reg] using h

/-- what `cover_of` asks for -/
def Cov (G : List (V → V)) (st : ℕ) : Prop := ∀ i j h : ℤ, U h → ∃ s a b c, Has G s a b c ∧
  Reg st (a * (if s then j else i)) (b * (if s then i else j)) ∧ (c * h = 1 ∨ withSouth st = true)

/-- tries one group element -/
macro "el" e:term : tactic =>
  `(tactic| (refine ⟨_, _, _, _, $e, ?_, ?_⟩ <;> [(simp [Reg] <;> omega); (simp [withSouth])]))

theorem cov1 : Cov G 1 := fun i j h _ => by el (has_id G)

theorem cov2 (hi : inv ∈ G) : Cov G 2 := by
  rintro i j h (rfl | rfl)
  · el (has_id G)
  · el (has_inv hi)

theorem cov3 (hi : y2 ∈ G ∨ z2 ∈ G) : Cov G 3 := by
  rintro i j h (rfl | rfl) <;> rcases le_total 0 i with h1 | h1 <;> rcases hi with hi | hi <;>
    first | el (has_id G) | el (has_y2 hi) | el (has_z2 hi)

theorem cov4 (hi : my ∈ G) : Cov G 4 := by
  rintro i j h (rfl | rfl) <;> rcases le_total 0 j with h1 | h1 <;>
    first | el (has_id G) | el (has_my hi)

/-- quadrant, both hemispheres -/
theorem cov5 (c : ℤ) (hc : Has G false (-1) (-1) c) (d e : ℤ)
    (hd : (Has G false (-1) 1 d ∧ Has G false 1 (-1) e) ∨ (Has G true (-1) 1 d ∧ Has G true 1 (-1) e)) : Cov G 5 := by
  rintro i j h hh
  rcases le_total 0 i with h1 | h1 <;> rcases le_total 0 j with h2 | h2 <;> rcases hd with ⟨ha, hb⟩ | ⟨ha, hb⟩ <;>
    first | el (has_id G) | el hc | el ha | el hb

/-- quadrant, northern hemisphere: two opposite quadrants for each hemisphere -/
theorem cov6 (h1 : Has G false (-1) (-1) 1)
    (h2 : (Has G false (-1) 1 1 ∧ Has G false 1 (-1) 1) ∨ (Has G true (-1) 1 1 ∧ Has G true 1 (-1) 1))
    (h3 : Has G false 1 1 (-1) ∧ Has G false (-1) (-1) (-1) ∨ Has G true 1 1 (-1) ∧ Has G true (-1) (-1) (-1))
    (h4 : (Has G false (-1) 1 (-1) ∧ Has G false 1 (-1) (-1)) ∨ (Has G true (-1) 1 (-1) ∧ Has G true 1 (-1) (-1))) :
    Cov G 6 := by
  rintro i j h (rfl | rfl)
  · rcases le_total 0 i with hi | hi <;> rcases le_total 0 j with hj | hj <;> rcases h2 with ⟨ha, hb⟩ | ⟨ha, hb⟩ <;>
      first | el (has_id G) | el h1 | el ha | el hb
  · rcases le_total 0 i with hi | hi <;> rcases le_total 0 j with hj | hj <;> rcases h3 with ⟨ha, hb⟩ | ⟨ha, hb⟩ <;>
      rcases h4 with ⟨hc, hd⟩ | ⟨hc, hd⟩ <;> first | el ha | el hb | el hc | el hd

/-- octant, both hemispheres -/
theorem cov7 (c1 c2 c3 c4 c5 c6 c7 : ℤ) (e1 : Has G false (-1) 1 c1) (e2 : Has G false 1 (-1) c2)
    (e3 : Has G false (-1) (-1) c3) (e4 : Has G true 1 1 c4) (e5 : Has G true (-1) 1 c5) (e6 : Has G true 1 (-1) c6)
    (e7 : Has G true (-1) (-1) c7) : Cov G 7 := by
  rintro i j h hh
  rcases le_total 0 i with h1 | h1 <;> rcases le_total 0 j with h2 | h2 <;> rcases le_total i j with h3 | h3 <;>
    rcases le_total (-i) j with h4 | h4 <;>
    first | el (has_id G) | el e1 | el e2 | el e3 | el e4 | el e5 | el e6 | el e7

/-- quarter `|y| ≤ x`, northern hemisphere -/
theorem cov8 (n1 : Has G false (-1) (-1) 1) (n2 : Has G true 1 1 1 ∧ Has G true (-1) (-1) 1 ∨ Has G true 1 (-1) 1 ∧ Has G true (-1) 1 1)
    (s1 : Has G false 1 (-1) (-1) ∧ Has G false (-1) 1 (-1) ∨ Has G false 1 1 (-1) ∧ Has G false (-1) (-1) (-1))
    (s2 : Has G true 1 1 (-1) ∧ Has G true (-1) (-1) (-1) ∨ Has G true 1 (-1) (-1) ∧ Has G true (-1) 1 (-1)) : Cov G 8 := by
  rintro i j h (rfl | rfl)
  · rcases le_total i j with h3 | h3 <;> rcases le_total (-i) j with h4 | h4 <;> rcases n2 with ⟨ha, hb⟩ | ⟨ha, hb⟩ <;>
      first | el (has_id G) | el n1 | el ha | el hb
  · rcases le_total i j with h3 | h3 <;> rcases le_total (-i) j with h4 | h4 <;> rcases s1 with ⟨ha, hb⟩ | ⟨ha, hb⟩ <;>
      rcases s2 with ⟨hc, hd⟩ | ⟨hc, hd⟩ <;> first | el ha | el hb | el hc | el hd

/-- octant, northern hemisphere, with the inversion -/
theorem cov9 (e1 : Has G false (-1) 1 1) (e2 : Has G false 1 (-1) 1)
    (e3 : Has G false (-1) (-1) 1) (e4 : Has G true 1 1 1) (e5 : Has G true (-1) 1 1) (e6 : Has G true 1 (-1) 1)
    (e7 : Has G true (-1) (-1) 1) (em : Has G false 1 1 (-1)) : Cov G 9 := by
  have m : ∀ {s a b}, Has G s a b 1 → Has G s a b (-1) := by
    intro s a b h
    have := has_mul h em
    cases s <;> simpa using this
  rintro i j h (rfl | rfl)
  · rcases le_total 0 i with h1 | h1 <;> rcases le_total 0 j with h2 | h2 <;> rcases le_total i j with h3 | h3 <;>
      rcases le_total (-i) j with h4 | h4 <;>
      first | el (has_id G) | el e1 | el e2 | el e3 | el e4 | el e5 | el e6 | el e7
  · rcases le_total 0 i with h1 | h1 <;> rcases le_total 0 j with h2 | h2 <;> rcases le_total i j with h3 | h3 <;>
      rcases le_total (-i) j with h4 | h4 <;>
      first | el (m (has_id G)) | el (m e1) | el (m e2) | el (m e3) | el (m e4) | el (m e5) | el (m e6) | el (m e7)

/-- 222: the three two-fold axes -/
theorem has_x2' (h1 : z2 ∈ G) (h2 : y2 ∈ G) : Has G false 1 (-1) (-1) := by
  simpa using has_mul (has_z2 h1) (has_y2 h2)

theorem has_my' (h1 : y2 ∈ G) (h2 : inv ∈ G) : Has G false 1 (-1) 1 := by
  simpa using has_mul (has_y2 h1) (has_inv h2)

theorem has_mx (h1 : z2 ∈ G) (h2 : my ∈ G) : Has G false (-1) 1 1 := by
  simpa using has_mul (has_z2 h1) (has_my h2)

theorem has_mz (h1 : z2 ∈ G) (h2 : inv ∈ G) : Has G false 1 1 (-1) := by
  simpa using has_mul (has_z2 h1) (has_inv h2)

theorem has_mx' (h1 : z2 ∈ G) (h2 : y2 ∈ G) (h3 : inv ∈ G) : Has G false (-1) 1 1 := by
  simpa using has_mul (has_y2 h2) (has_mz h1 h3)

theorem has_z4i (h1 : z2 ∈ G) (h2 : z4 ∈ G) : Has G true 1 (-1) 1 := by
  simpa using has_mul (has_z4 h2) (has_z2 h1)

theorem has_b4i (h1 : z2 ∈ G) (h2 : b4 ∈ G) : Has G true (-1) 1 (-1) := by
  simpa using has_mul (has_b4 h2) (has_z2 h1)

theorem has_d2' (h1 : y2 ∈ G) (h2 : z4 ∈ G) : Has G true (-1) (-1) (-1) := by
  simpa using has_mul (has_y2 h1) (has_z4 h2)

theorem has_d2'' (h0 : z2 ∈ G) (h1 : y2 ∈ G) (h2 : z4 ∈ G) : Has G true 1 1 (-1) := by
  simpa using has_mul (has_d2' h1 h2) (has_z2 h0)

theorem covers_p2om (h1 : y2 ∈ G) (h2 : inv ∈ G) : Cov G 5 :=
  cov5 (-1) (has_inv h2) (-1) 1 (.inl ⟨has_y2 h1, has_my' h1 h2⟩)

theorem covers_p222 (h1 : z2 ∈ G) (h2 : y2 ∈ G) : Cov G 5 :=
  cov5 1 (has_z2 h1) (-1) (-1) (.inl ⟨has_y2 h2, has_x2' h1 h2⟩)

theorem covers_mm2 (h1 : z2 ∈ G) (h2 : my ∈ G) : Cov G 5 :=
  cov5 1 (has_z2 h1) 1 1 (.inl ⟨has_mx h1 h2, has_my h2⟩)

theorem covers_mmm (h1 : z2 ∈ G) (h2 : y2 ∈ G) (h3 : inv ∈ G) : Cov G 6 :=
  cov6 (has_z2 h1) (.inl ⟨has_mx' h1 h2 h3, has_my' h2 h3⟩) (.inl ⟨has_mz h1 h3, has_inv h3⟩)
    (.inl ⟨has_y2 h2, has_x2' h1 h2⟩)

theorem covers_p4 (h1 : z2 ∈ G) (h2 : z4 ∈ G) : Cov G 5 :=
  cov5 1 (has_z2 h1) 1 1 (.inr ⟨has_z4 h2, has_z4i h1 h2⟩)

theorem covers_b4 (h1 : z2 ∈ G) (h2 : b4 ∈ G) : Cov G 5 :=
  cov5 1 (has_z2 h1) (-1) (-1) (.inr ⟨has_b4i h1 h2, has_b4 h2⟩)

theorem covers_p4om (h1 : z2 ∈ G) (h2 : z4 ∈ G) (h3 : inv ∈ G) : Cov G 6 :=
  cov6 (has_z2 h1) (.inr ⟨has_z4 h2, has_z4i h1 h2⟩) (.inl ⟨has_mz h1 h3, has_inv h3⟩)
    (.inr ⟨by simpa using has_mul (has_z4 h2) (has_mz h1 h3), by simpa using has_mul (has_z4i h1 h2) (has_mz h1 h3)⟩)

theorem covers_p422 (h1 : z2 ∈ G) (h2 : z4 ∈ G) (h3 : y2 ∈ G) : Cov G 6 :=
  cov6 (has_z2 h1) (.inr ⟨has_z4 h2, has_z4i h1 h2⟩) (.inr ⟨has_d2'' h1 h3 h2, has_d2' h3 h2⟩)
    (.inl ⟨has_y2 h3, has_x2' h1 h3⟩)

theorem covers_p422' (h1 : z2 ∈ G) (h2 : z4 ∈ G) (h3 : y2 ∈ G) : Cov G 7 :=
  cov7 _ _ _ _ _ _ _ (has_y2 h3) (has_x2' h1 h3) (has_z2 h1) (has_d2'' h1 h3 h2) (has_z4 h2) (has_z4i h1 h2)
    (has_d2' h3 h2)

theorem covers_p4mm (h1 : z2 ∈ G) (h2 : z4 ∈ G) (h3 : my ∈ G) : Cov G 7 :=
  cov7 1 1 1 1 1 1 1 (has_mx h1 h3) (has_my h3) (has_z2 h1) (by simpa using has_mul (has_my h3) (has_z4 h2)) (has_z4 h2)
    (has_z4i h1 h2) (by simpa using has_mul (has_mx h1 h3) (has_z4 h2))

theorem covers_b42m (h1 : z2 ∈ G) (h2 : b4 ∈ G) (h3 : y2 ∈ G) : Cov G 8 :=
  cov8 (has_z2 h1)
    (.inl ⟨by simpa using has_mul (has_x2' h1 h3) (has_b4i h1 h2), by simpa using has_mul (has_y2 h3) (has_b4i h1 h2)⟩)
    (.inl ⟨has_x2' h1 h3, has_y2 h3⟩) (.inr ⟨has_b4 h2, has_b4i h1 h2⟩)

theorem covers_b4m2 (h1 : z2 ∈ G) (h2 : b4 ∈ G) (h3 : my ∈ G) : Cov G 6 :=
  cov6 (has_z2 h1) (.inl ⟨has_mx h1 h3, has_my h3⟩)
    (.inr ⟨by simpa using has_mul (has_mx h1 h3) (has_b4 h2), by simpa using has_mul (has_my h3) (has_b4 h2)⟩)
    (.inr ⟨has_b4i h1 h2, has_b4 h2⟩)

theorem covers_p4ommm (h1 : z2 ∈ G) (h2 : z4 ∈ G) (h3 : y2 ∈ G) (h4 : inv ∈ G) : Cov G 9 :=
  cov9 (has_mx' h1 h3 h4) (has_my' h3 h4) (has_z2 h1) (by simpa using has_mul (has_d2'' h1 h3 h2) (has_mz h1 h4))
    (has_z4 h2) (has_z4i h1 h2) (by simpa using has_mul (has_d2' h3 h2) (has_mz h1 h4)) (has_mz h1 h4)

/-- 432 contains the four-fold axis along z -/
theorem has_z4d (h1 : y2 ∈ G) (h2 : d2 ∈ G) : Has G true 1 (-1) 1 := by
  simpa using has_mul (has_y2 h1) (has_d2 h2)

theorem has_z4di (h0 : z2 ∈ G) (h1 : y2 ∈ G) (h2 : d2 ∈ G) : Has G true (-1) 1 1 := by
  simpa using has_mul (has_z4d h1 h2) (has_z2 h0)

theorem has_d2m (h0 : z2 ∈ G) (h2 : d2 ∈ G) : Has G true (-1) (-1) (-1) := by
  simpa using has_mul (has_d2 h2) (has_z2 h0)

theorem covers_p432 (h1 : z2 ∈ G) (h2 : y2 ∈ G) (h3 : d2 ∈ G) : Cov G 6 :=
  cov6 (has_z2 h1) (.inr ⟨has_z4di h1 h2 h3, has_z4d h2 h3⟩) (.inr ⟨has_d2 h3, has_d2m h1 h3⟩)
    (.inl ⟨has_y2 h2, has_x2' h1 h2⟩)

theorem covers_p432' (h1 : z2 ∈ G) (h2 : y2 ∈ G) (h3 : d2 ∈ G) : Cov G 8 :=
  cov8 (has_z2 h1) (.inr ⟨has_z4d h2 h3, has_z4di h1 h2 h3⟩) (.inl ⟨has_x2' h1 h2, has_y2 h2⟩)
    (.inl ⟨has_d2 h3, has_d2m h1 h3⟩)

theorem covers_b43m (h1 : z2 ∈ G) (h2 : y2 ∈ G) (h3 : sw ∈ G) : Cov G 8 :=
  cov8 (has_z2 h1) (.inl ⟨has_sw h3, by simpa using has_mul (has_sw h3) (has_z2 h1)⟩) (.inl ⟨has_x2' h1 h2, has_y2 h2⟩)
    (.inr ⟨by simpa using has_mul (has_y2 h2) (has_sw h3), by simpa using has_mul (has_x2' h1 h2) (has_sw h3)⟩)

theorem covers_mb3m (h1 : z2 ∈ G) (h2 : y2 ∈ G) (h3 : d2 ∈ G) (h4 : inv ∈ G) : Cov G 9 :=
  cov9 (has_mx' h1 h2 h4) (has_my' h2 h4) (has_z2 h1) (by simpa using has_mul (has_d2 h3) (has_mz h1 h4))
    (has_z4di h1 h2 h3) (has_z4d h2 h3) (by simpa using has_mul (has_d2m h1 h3) (has_mz h1 h4)) (has_mz h1 h4)

end

/-- pairs (point group, sampling type) for which the sampled region meets every orbit -/
def good : List (PG × ℕ) := [(.p1, 1), (.b1, 2), (.p2, 3), (.m, 4), (.p2om, 5), (.p222, 5), (.mm2, 5), (.mmm, 6), (.mmm, 5),
  (.p4, 5), (.b4, 5), (.p4om, 6), (.p422, 6), (.p422, 7), (.p4mm, 7), (.b42m, 8), (.b42m, 6), (.p4ommm, 9), (.p6ommm, 3),
  (.p23, 3), (.mb3, 6), (.p432, 6), (.p432, 8), (.b43m, 8), (.mb3m, 9)]

theorem good_cov {sg st : ℕ} (h : (pgOfSpaceGroup sg, st) ∈ good)
    (hb : pgOfSpaceGroup sg = .b42m → (st = 6 ↔ (115 ≤ sg ∧ sg ≤ 120))) : Cov (gens sg) st := by
  unfold gens
  cases hp : pgOfSpaceGroup sg <;> rw [hp] at h hb <;> simp [good] at h <;> simp only at *
  case b42m =>
    have hb : st = 6 ↔ (115 ≤ sg ∧ sg ≤ 120) := by simpa using hb
    rcases h with rfl | rfl
    · rw [if_neg (by simpa using hb.not.mp (by norm_num))]
      exact covers_b42m (by simp) (by simp) (by simp)
    · rw [if_pos (hb.mp rfl)]
      exact covers_b4m2 (by simp) (by simp) (by simp)
  case mmm =>
    rcases h with rfl | rfl
    · exact covers_mmm (by simp) (by simp) (by simp)
    · exact covers_p222 (by simp) (by simp)
  case p422 =>
    rcases h with rfl | rfl
    · exact covers_p422 (by simp) (by simp) (by simp)
    · exact covers_p422' (by simp) (by simp) (by simp)
  case p432 =>
    rcases h with rfl | rfl
    · exact covers_p432 (by simp) (by simp) (by simp)
    · exact covers_p432' (by simp) (by simp) (by simp)
  all_goals subst h
  case p1 => exact cov1
  case b1 => exact cov2 (by simp)
  case p2 => exact cov3 (by simp)
  case m => exact cov4 (by simp)
  case p2om => exact covers_p2om (by simp) (by simp)
  case p222 => exact covers_p222 (by simp) (by simp)
  case mm2 => exact covers_mm2 (by simp) (by simp)
  case p4 => exact covers_p4 (by simp) (by simp)
  case b4 => exact covers_b4 (by simp) (by simp)
  case p4om => exact covers_p4om (by simp) (by simp) (by simp)
  case p4mm => exact covers_p4mm (by simp) (by simp) (by simp)
  case p4ommm => exact covers_p4ommm (by simp) (by simp) (by simp) (by simp)
  case p6ommm => exact cov3 (by simp)
  case p23 => exact cov3 (by simp)
  case mb3 => exact covers_mmm (by simp) (by simp) (by simp)
  case b43m => exact covers_b43m (by simp) (by simp) (by simp)
  case mb3m => exact covers_mb3m (by simp) (by simp) (by simp) (by simp)

theorem covered {pg sg st w : ℕ} {second : Bool} (hst : stnumOf pg sg = some st) (h1 : 1 ≤ st) (h9 : st ≤ 9)
    (h : (pgOfSpaceGroup sg, st) ∈ good) (hb : pgOfSpaceGroup sg = .b42m → (st = 6 ↔ (115 ≤ sg ∧ sg ≤ 120))) :
    ∃ rows, kvectorsGrid pg sg second w = some rows ∧ ∀ i j h : ℤ, |i| ≤ w → |j| ≤ w → (h = 1 ∨ h = -1) →
      ∃ r ∈ rows, Dir.Equiv (gens sg) (gridDir w i j h) r.1 := by
  refine cover_of (gens sg) hst h1 h9 fun i j k hk => ?_
  obtain ⟨s, a, b, c, e, hr, hs⟩ := good_cov h hb i j k hk
  exact ⟨s, a, b, c, e, keep_of_reg hr, hs⟩

/-- the sampling type selected by `pg` and `sg` is sufficient for the point group of `sg` -/
def okPair (pg sg : ℕ) : Bool :=
  (stnumOf pg sg).elim false fun st => decide (1 ≤ st) && decide (st ≤ 9) && decide ((pgOfSpaceGroup sg, st) ∈ good) &&
    (decide (pgOfSpaceGroup sg ≠ .b42m) || decide (st = 6) == (decide (115 ≤ sg) && decide (sg ≤ 120)))

theorem okPair_spec {pg sg : ℕ} (h : okPair pg sg = true) : ∃ st, 1 ≤ st ∧ st ≤ 9 ∧ stnumOf pg sg = some st ∧
    (pgOfSpaceGroup sg, st) ∈ good ∧ (pgOfSpaceGroup sg = .b42m → (st = 6 ↔ (115 ≤ sg ∧ sg ≤ 120))) := by
  unfold okPair at h
  cases hs : stnumOf pg sg with
  | none => rw [hs] at h; simp at h
  | some st =>
    rw [hs] at h
    simp only [Option.elim_some, Bool.and_eq_true, decide_eq_true_eq, Bool.or_eq_true, beq_iff_eq] at h
    obtain ⟨⟨⟨a, b⟩, c⟩, d⟩ := h
    refine ⟨st, a, b, rfl, c, fun hb => ?_⟩
    rcases d with d | d
    · exact absurd hb d
    · have := congrArg (· = true) d
      simpa using this

/-- C91 with the right point group number: for every space group outside the trigonal and hexagonal systems the sampled
directions meet the orbit of every direction of the full two-hemisphere grid.  (The number stored by `Cell` is usually
not the right one: C55.) -/
theorem C91_right_number_partial (sg w : ℕ) (second : Bool) (h : (1 ≤ sg ∧ sg ≤ 142) ∨ (195 ≤ sg ∧ sg ≤ 230)) :
    ∃ rows, kvectorsGrid (PG.all.idxOf (pgOfSpaceGroup sg) + 1) sg second w = some rows ∧
      ∀ i j h : ℤ, |i| ≤ w → |j| ≤ w → (h = 1 ∨ h = -1) → ∃ r ∈ rows, Dir.Equiv (gens sg) (gridDir w i j h) r.1 := by
  have t : ∀ k < 230, k < 142 ∨ 194 ≤ k → okPair (PG.all.idxOf (pgOfSpaceGroup (k + 1)) + 1) (k + 1) = true := by
    decide +kernel
  have ht := t (sg - 1) (by omega) (by omega)
  rw [Nat.sub_add_cancel (by omega)] at ht
  obtain ⟨st, h1, h9, hst, hg, hb⟩ := okPair_spec ht
  exact covered hst h1 h9 hg hb

example : (1 ≤ 14 ∧ 14 ≤ 142) ∨ (195 ≤ 14 ∧ 14 ≤ 230) := by norm_num

/-- the space groups for which the number that `Cell` stores still selects a sufficient sampling type -/
def coveredSg (sg : ℕ) : Prop := sg ∈ [1, 2, 3, 6] ∨ (10 ≤ sg ∧ sg ≤ 25) ∨ (47 ≤ sg ∧ sg ≤ 81) ∨ (83 ≤ sg ∧ sg ≤ 99) ∨
  sg ∈ [111, 123] ∨ (192 ≤ sg ∧ sg ≤ 195) ∨ (200 ≤ sg ∧ sg ≤ 215) ∨ (221 ≤ sg ∧ sg ≤ 230)

instance (sg : ℕ) : Decidable (coveredSg sg) := by unfold coveredSg; infer_instance

/-- C91 for cells as the code builds them: for these space groups the k-vector grid of every half width meets the orbit of
every direction of the full two-hemisphere grid. -/
theorem C91_cover_partial (sg w : ℕ) (second : Bool) (h : coveredSg sg) :
    ∃ rows, kvectorsGrid (Cryst.pgNum sg) sg second w = some rows ∧
      ∀ i j h : ℤ, |i| ≤ w → |j| ≤ w → (h = 1 ∨ h = -1) → ∃ r ∈ rows, Dir.Equiv (gens sg) (gridDir w i j h) r.1 := by
  have t : ∀ k < 230, coveredSg (k + 1) → okPair (Cryst.pgNum (k + 1)) (k + 1) = true := by
    decide +kernel
  have hr : 1 ≤ sg ∧ sg ≤ 230 := by
    unfold coveredSg at h; simp at h; omega
  have ht := t (sg - 1) (by omega) (by rwa [Nat.sub_add_cancel (by omega)])
  rw [Nat.sub_add_cancel (by omega)] at ht
  obtain ⟨st, h1, h9, hst, hg, hb⟩ := okPair_spec ht
  exact covered hst h1 h9 hg hb

example : coveredSg 225 ∧ coveredSg 194 ∧ ¬ coveredSg 216 := by decide

/-- C91: every returned row carries the direction of its own grid index, and no index is returned twice. -/
theorem C91_rows (pg sg st w : ℕ) (second : Bool) (hst : stnumOf pg sg = some st) (h1 : 1 ≤ st) (h9 : st ≤ 9) :
    ∃ rows, kvectorsGrid pg sg second w = some rows ∧
      (∀ r ∈ rows, r.1 = gridDir w r.2.1 r.2.2.1 r.2.2.2 ∧ |r.2.1| ≤ w ∧ |r.2.2.1| ≤ w ∧ (r.2.2.2 = 1 ∨ r.2.2.2 = -1)) ∧ (rows.map Prod.snd).Nodup := by
  obtain ⟨rows, hr, hm⟩ := grid_square (w := w) (second := second) hst h1 h9
  refine ⟨rows, hr, fun r h => ?_, grid_nodup hst h1 h9 hr⟩
  obtain ⟨i, j, h, hi, hj, _, hh, rfl⟩ := (hm r).mp h
  exact ⟨rfl, hi, hj, by tauto⟩

example : stnumOf (Cryst.pgNum 225) 225 = some 9 := by decide +kernel

/-! ### space groups for which directions are missing -/

/-- the stored number selects no sampling type at all: `ValueError` for all space groups 124-142 (4/mmm). -/
theorem C91_raises_fails (sg w : ℕ) (second : Bool) (h1 : 124 ≤ sg) (h2 : sg ≤ 142) :
    kvectorsGrid (Cryst.pgNum sg) sg second w = none := by
  have t : ∀ k < 19, stnumOf (Cryst.pgNum (k + 124)) (k + 124) = none := by decide +kernel
  have := t (sg - 124) (by omega)
  rw [Nat.sub_add_cancel h1] at this
  unfold kvectorsGrid
  rw [this]; rfl

example : 124 ≤ 136 ∧ 136 ≤ 142 := by norm_num

/-- signs of the image of a square point -/
theorem squareK_sign (x y : ℝ) (hx : |x| ≤ 1) (hy : |y| ≤ 1) :
    (0 ≤ x → 0 ≤ (squareToHemisphereK (x, y)).x) ∧ (x < 0 → (squareToHemisphereK (x, y)).x < 0) := by
  have hx2 : 0 < sqrt (2 - x ^ 2) := sqrt_pos.mpr (by have := (sq_le_one_iff_abs_le_one x).mpr hx; linarith)
  have hy2 : 0 < sqrt (2 - y ^ 2) := sqrt_pos.mpr (by have := (sq_le_one_iff_abs_le_one y).mpr hy; linarith)
  rw [squareK_eq]
  by_cases h0 : x = 0 ∧ y = 0
  · rw [if_pos h0]; exact ⟨fun _ => le_refl _, fun h => absurd h0.1 h.ne⟩
  · rw [if_neg h0]
    by_cases hc : |y| ≤ |x|
    · have hxn : x ≠ 0 := by
        rintro rfl
        simp at hc; exact h0 ⟨rfl, hc⟩
      have hcp := cos_core_pos hxn hc
      simp only [if_pos hc, core]
      exact ⟨fun h => by positivity, fun h => mul_neg_of_neg_of_pos (mul_neg_of_neg_of_pos h hx2) hcp⟩
    · have hyn : y ≠ 0 := by rintro rfl; simp at hc
      have hc' := (not_le.mp hc).le
      have hs := xsin_sign hyn hc'
      simp only [if_neg hc, core]
      have e : y * sqrt (2 - y ^ 2) * sin (π * x / (4 * y)) = sqrt (2 - y ^ 2) * (y * sin (π * x / (4 * y))) := by ring
      rw [e]
      refine ⟨fun h => mul_nonneg hy2.le (hs.2 h), fun h => mul_neg_of_pos_of_neg hy2 (lt_of_le_of_ne (hs.1 h) ?_)⟩
      intro hz
      rcases mul_eq_zero.mp hz with hz | hz
      · exact hyn hz
      · have hb := abs_le.mp (ratio_bound hyn hc')
        have hp := pi_pos
        have := (sin_eq_zero_iff_of_lt_of_lt (by linarith) (by linarith)).mp hz
        rw [div_eq_zero_iff] at this
        rcases this with h' | h'
        · rcases mul_eq_zero.mp h' with h' | h' <;> linarith
        · exact hyn (by linarith)

theorem squareK_sign_y (x y : ℝ) (hx : |x| ≤ 1) (hy : |y| ≤ 1) :
    (0 ≤ y → 0 ≤ (squareToHemisphereK (x, y)).y) ∧ (y < 0 → (squareToHemisphereK (x, y)).y < 0) := by
  have := squareK_sign y x hy hx
  rwa [(C89_equivariant x y).2.2] at this

theorem squareK_z_pos (x y : ℝ) (hx : |x| < 1) (hy : |y| < 1) : 0 < (squareToHemisphereK (x, y)).z := by
  have h1 := (sq_lt_one_iff_abs_lt_one x).mpr hx
  have h2 := (sq_lt_one_iff_abs_lt_one y).mpr hy
  rw [squareK_eq]
  split
  · norm_num
  · split
    · simp only [core]; linarith
    · simp only [core]; linarith

theorem squareK_dom (x y : ℝ) (hx : |x| ≤ 1) (h : |y| ≤ |x|) :
    (squareToHemisphereK (x, y)).y ^ 2 ≤ (squareToHemisphereK (x, y)).x ^ 2 := by
  rw [sq_le_sq, squareK_eq]
  by_cases h0 : x = 0 ∧ y = 0
  · simp [h0]
  · rw [if_neg h0, if_pos h]
    have hxn : x ≠ 0 := by
      rintro rfl
      simp at h; exact h0 ⟨rfl, h⟩
    exact (rosca_core hxn hx h).1

theorem div_le_one_of {w : ℕ} {i : ℤ} (h : |i| ≤ w) : |(i : ℝ) / w| ≤ 1 := by
  rw [abs_div, Nat.abs_cast]
  refine div_le_one_of_le₀ ?_ (Nat.cast_nonneg w)
  have : ((|i| : ℤ) : ℝ) ≤ ((w : ℤ) : ℝ) := Int.cast_le.mpr h
  simpa using this

theorem div_lt_one_of {w : ℕ} {i : ℤ} (h : |i| < w) : |(i : ℝ) / w| < 1 := by
  have h0 : 0 < w := by have := abs_nonneg i; omega
  rw [abs_div, Nat.abs_cast, div_lt_one (by exact_mod_cast h0)]
  have : ((|i| : ℤ) : ℝ) < ((w : ℤ) : ℝ) := Int.cast_lt.mpr h
  simpa using this

/-- everything used about the signs of grid directions -/
theorem dir_facts {w : ℕ} (hw : 1 ≤ w) {i j h : ℤ} (hi : |i| ≤ w) (hj : |j| ≤ w) :
    (0 ≤ i → 0 ≤ (gridDir w i j h).x) ∧ (i < 0 → (gridDir w i j h).x < 0) ∧
    (0 ≤ j → 0 ≤ (gridDir w i j h).y) ∧ (j < 0 → (gridDir w i j h).y < 0) ∧
    (0 ≤ h → 0 ≤ (gridDir w i j h).z) ∧ (|j| ≤ |i| → (gridDir w i j h).y ^ 2 ≤ (gridDir w i j h).x ^ 2) := by
  have hw' : (0:ℝ) < w := by exact_mod_cast hw
  have hx := div_le_one_of hi
  have hy := div_le_one_of hj
  have s1 := squareK_sign _ _ hx hy
  have s2 := squareK_sign_y _ _ hx hy
  refine ⟨fun h => s1.1 (div_nonneg (by exact_mod_cast h) hw'.le), fun h => s1.2 (div_neg_of_neg_of_pos (by exact_mod_cast h) hw'),
    fun h => s2.1 (div_nonneg (by exact_mod_cast h) hw'.le), fun h => s2.2 (div_neg_of_neg_of_pos (by exact_mod_cast h) hw'),
    fun h => mul_nonneg (by exact_mod_cast h) (C89_unit _ _ hx hy).2, fun h => squareK_dom _ _ hx ?_⟩
  rw [abs_div, abs_div]
  refine div_le_div_of_nonneg_right ?_ (abs_nonneg _)
  rw [← Int.cast_abs, ← Int.cast_abs]
  exact_mod_cast h

/-- a polynomial invariant separates a direction from everything sampled -/
theorem missing {pg sg st w : ℕ} {second : Bool} (hst : stnumOf pg sg = some st) (h1 : 1 ≤ st) (h9 : st ≤ 9)
    (f : V → ℝ) (hf : ∀ g ∈ gens sg, ∀ a, f (g a) = f a)
    (hpos : ∀ i j h : ℤ, |i| ≤ w → |j| ≤ w → Reg st i j → (h = 1 ∨ (h = -1 ∧ withSouth st = true)) → 0 ≤ f (gridDir w i j h))
    (i j h : ℤ) (hi : |i| ≤ w) (hj : |j| ≤ w) (hh : h = 1 ∨ h = -1) (hneg : f (gridDir w i j h) < 0) :
    ∃ rows, kvectorsGrid pg sg second w = some rows ∧ ∃ i j h : ℤ, |i| ≤ w ∧ |j| ≤ w ∧ (h = 1 ∨ h = -1) ∧
      ∀ r ∈ rows, ¬ Dir.Equiv (gens sg) (gridDir w i j h) r.1 := by
  obtain ⟨rows, hr, hm⟩ := grid_square (w := w) (second := second) hst h1 h9
  refine ⟨rows, hr, i, j, h, hi, hj, hh, fun r hrm he => ?_⟩
  obtain ⟨a, b, c, ha, hb, hk, hc, rfl⟩ := (hm r).mp hrm
  have := he.invariant f hf
  have := hpos a b c ha hb (reg_of_keep h1 h9 hk) hc
  linarith

/-- the space groups for which the stored number selects a square sampling type that misses directions -/
def missingSg (sg : ℕ) : Prop := sg ∈ [4, 5, 7, 8, 9, 82] ∨ (26 ≤ sg ∧ sg ≤ 46) ∨ (100 ≤ sg ∧ sg ≤ 110) ∨
  (112 ≤ sg ∧ sg ≤ 122) ∨ (196 ≤ sg ∧ sg ≤ 199) ∨ (216 ≤ sg ∧ sg ≤ 220)

instance (sg : ℕ) : Decidable (missingSg sg) := by unfold missingSg; infer_instance

/-- C91 fails: for these space groups (among them zinc blende, 216) and every half width above one, some direction of the
full grid is equivalent to no sampled direction. -/
theorem C91_missing_fails (sg w : ℕ) (second : Bool) (hw : 2 ≤ w) (h : missingSg sg) :
    ∃ rows, kvectorsGrid (Cryst.pgNum sg) sg second w = some rows ∧ ∃ i j h : ℤ, |i| ≤ w ∧ |j| ≤ w ∧ (h = 1 ∨ h = -1) ∧
      ∀ r ∈ rows, ¬ Dir.Equiv (gens sg) (gridDir w i j h) r.1 := by
  have t : ∀ k < 230, missingSg (k + 1) → (pgOfSpaceGroup (k + 1), stnumOf (Cryst.pgNum (k + 1)) (k + 1)) ∈
      [(PG.p2, some 4), (PG.m, some 5), (PG.mm2, some 6), (PG.b4, some 6), (PG.p4mm, some 8), (PG.b42m, some 9), (PG.p23, some 6),
       (PG.b43m, some 9)] := by
    decide +kernel
  have hr : 1 ≤ sg ∧ sg ≤ 230 := by
    unfold missingSg at h; simp at h; omega
  have ht := t (sg - 1) (by omega) (by rwa [Nat.sub_add_cancel (by omega)])
  rw [Nat.sub_add_cancel (by omega)] at ht
  have b0 : |(0:ℤ)| ≤ w := by simp
  have b1 : |(1:ℤ)| ≤ w := by simp; omega
  have bm : |(-1:ℤ)| ≤ w := by simp; omega
  have l0 : |(0:ℤ)| < w := by simp; omega
  have l1 : |(1:ℤ)| < w := by simp; omega
  have lm : |(-1:ℤ)| < w := by simp; omega
  have hw1 : 1 ≤ w := by omega
  have e : ∀ i j h : ℤ, |i| ≤ w → |j| ≤ w → _ := fun i j h hi hj => dir_facts (h := h) hw1 hi hj
  have zp : ∀ i j : ℤ, |i| < w → |j| < w → 0 < (gridDir w i j 1).z := fun i j hi hj => by
    have := squareK_z_pos _ _ (div_lt_one_of hi) (div_lt_one_of hj)
    simpa [gridDir] using this
  have zn : ∀ i j : ℤ, |i| < w → |j| < w → (gridDir w i j (-1)).z < 0 := fun i j hi hj => by
    have := squareK_z_pos _ _ (div_lt_one_of hi) (div_lt_one_of hj)
    simpa [gridDir] using this
  -- the grid direction (1, -1) has x > 0 > y
  have x1 : 0 < (gridDir w 1 (-1) 1).x := by
    have h1 := (e (-1) (-1) 1 bm bm).2.1 (by norm_num)
    have := gridDir_sp w false (a := -1) (b := 1) (c := 1) um u1 (-1) (-1) 1
    simp at this
    rw [this]; simp [sp]; linarith
  have y1 := (e 1 (-1) 1 b1 bm).2.2.2.1 (by norm_num)
  have x0 : (gridDir w 0 (-1) 1).x = 0 := by
    have := gridDir_sp w false (a := -1) (b := 1) (c := 1) um u1 0 (-1) 1
    simp [sp] at this
    have := congrArg V.x this
    simp at this; linarith
  have y0 := (e 0 (-1) 1 b0 bm).2.2.2.1 (by norm_num)
  have xyzneg : (gridDir w 1 (-1) 1).x * (gridDir w 1 (-1) 1).y * (gridDir w 1 (-1) 1).z < 0 :=
    mul_neg_of_neg_of_pos (mul_neg_of_pos_of_neg x1 y1) (zp 1 (-1) l1 lm)
  have xyzpos : ∀ i j h : ℤ, |i| ≤ w → |j| ≤ w → 0 ≤ i → 0 ≤ j → h = 1 →
      0 ≤ (gridDir w i j h).x * (gridDir w i j h).y * (gridDir w i j h).z := by
    rintro i j h hi hj hi0 hj0 rfl
    have := e i j 1 hi hj
    exact mul_nonneg (mul_nonneg (this.1 hi0) (this.2.2.1 hj0)) (this.2.2.2.2.1 (by norm_num))
  simp only [List.mem_cons, Prod.mk.injEq, List.not_mem_nil, or_false] at ht
  rcases ht with ⟨hp, hst⟩ | ⟨hp, hst⟩ | ⟨hp, hst⟩ | ⟨hp, hst⟩ | ⟨hp, hst⟩ | ⟨hp, hst⟩ | ⟨hp, hst⟩ | ⟨hp, hst⟩
  · refine missing hst (by norm_num) (by norm_num) (fun v => v.y) ?_ ?_ 0 (-1) 1 b0 bm (.inl rfl) y0
    · simp [gens, hp, y2]
    · intro i j h hi hj hreg _; exact (e i j h hi hj).2.2.1 hreg
  · refine missing hst (by norm_num) (by norm_num) (fun v => v.x) ?_ ?_ (-1) 0 1 bm b0 (.inl rfl)
      ((e (-1) 0 1 bm b0).2.1 (by norm_num))
    · simp [gens, hp, my]
    · intro i j h hi hj hreg _; exact (e i j h hi hj).1 hreg.1
  · refine missing hst (by norm_num) (by norm_num) (fun v => v.z) ?_ ?_ 0 0 (-1) b0 b0 (.inr rfl) (zn 0 0 l0 l0)
    · simp [gens, hp, z2, my]
    · intro i j h hi hj hreg hh; exact (e i j h hi hj).2.2.2.2.1 (by simp [withSouth] at hh; omega)
  · refine missing hst (by norm_num) (by norm_num) (fun v => v.x * v.y * v.z) ?_ ?_ 1 (-1) 1 b1 bm (.inl rfl) xyzneg
    · intro g hg a
      simp only [gens, hp, List.mem_cons, List.not_mem_nil, or_false] at hg
      rcases hg with rfl | rfl <;> simp only [z2, b4] <;> ring
    · intro i j h hi hj hreg hh; exact xyzpos i j h hi hj hreg.1 hreg.2 (by simpa [withSouth] using hh)
  · refine missing hst (by norm_num) (by norm_num) (fun v => v.z) ?_ ?_ 0 0 (-1) b0 b0 (.inr rfl) (zn 0 0 l0 l0)
    · simp [gens, hp, z2, my, z4]
    · intro i j h hi hj hreg hh; exact (e i j h hi hj).2.2.2.2.1 (by simp [withSouth] at hh; omega)
  · by_cases hb : 115 ≤ sg ∧ sg ≤ 120
    · refine missing hst (by norm_num) (by norm_num) (fun v => v.z * (v.x ^ 2 - v.y ^ 2)) ?_ ?_ 0 (-1) 1 b0 bm (.inl rfl) ?_
      · intro g hg a
        simp only [gens, hp, if_pos hb, List.mem_cons, List.not_mem_nil, or_false] at hg
        rcases hg with rfl | rfl | rfl <;> simp only [z2, b4, my] <;> ring
      · intro i j h hi hj hreg hh
        have := e i j h hi hj
        have h2 := this.2.2.2.2.2 (by rw [abs_of_nonneg hreg.1, abs_of_nonneg hreg.2.1]; exact hreg.2.2)
        exact mul_nonneg (this.2.2.2.2.1 (by simp [withSouth] at hh; omega)) (by linarith)
      · simp only [x0]
        have := zp 0 (-1) l0 lm
        have : 0 < (gridDir w 0 (-1) 1).y ^ 2 := sq_pos_of_neg y0
        nlinarith
    · refine missing hst (by norm_num) (by norm_num) (fun v => v.x * v.y * v.z) ?_ ?_ 1 (-1) 1 b1 bm (.inl rfl) xyzneg
      · intro g hg a
        simp only [gens, hp, if_neg hb, List.mem_cons, List.not_mem_nil, or_false] at hg
        rcases hg with rfl | rfl | rfl <;> simp only [z2, b4, y2] <;> ring
      · intro i j h hi hj hreg hh; exact xyzpos i j h hi hj hreg.1 hreg.2.1 (by simpa [withSouth] using hh)
  · refine missing hst (by norm_num) (by norm_num) (fun v => v.x * v.y * v.z) ?_ ?_ 1 (-1) 1 b1 bm (.inl rfl) xyzneg
    · intro g hg a
      simp only [gens, hp, List.mem_cons, List.not_mem_nil, or_false] at hg
      rcases hg with rfl | rfl | rfl <;> simp only [z2, y2, r3] <;> ring
    · intro i j h hi hj hreg hh; exact xyzpos i j h hi hj hreg.1 hreg.2 (by simpa [withSouth] using hh)
  · refine missing hst (by norm_num) (by norm_num) (fun v => v.x * v.y * v.z) ?_ ?_ 1 (-1) 1 b1 bm (.inl rfl) xyzneg
    · intro g hg a
      simp only [gens, hp, List.mem_cons, List.not_mem_nil, or_false] at hg
      rcases hg with rfl | rfl | rfl | rfl <;> simp only [z2, y2, r3, Dir.sw] <;> ring
    · intro i j h hi hj hreg hh; exact xyzpos i j h hi hj hreg.1 hreg.2.1 (by simpa [withSouth] using hh)

example : missingSg 216 ∧ missingSg 36 ∧ ¬ missingSg 225 := by decide

end Verif.KV
