import Verif.Props.KVecCover
import Mathlib.Analysis.SpecialFunctions.Pow.Real
/-!
C89 / C91 for the hexagon map.
-/
namespace Verif.KV
open Real Verif.Spec Verif.Spec.Dir

/-- the regular hexagon with unit side and vertices `(±1, 0)`, `(±1/2, ±√3/2)` -/
def InHexagon (p : ℝ × ℝ) : Prop := |p.2| ≤ sqrt 3 / 2 ∧ |p.2| + sqrt 3 * |p.1| ≤ sqrt 3

/-- distance of the point in the direction of the nearest edge normal -/
noncomputable def hexR (p : ℝ × ℝ) : ℝ := max |p.2| (|p.2| / 2 + sqrt 3 / 2 * |p.1|)

theorem s3pos : 0 < sqrt 3 := sqrt_pos.mpr (by norm_num)
theorem s3sq : sqrt 3 * sqrt 3 = 3 := mul_self_sqrt (by norm_num)

theorem rot_iff (X Y : ℝ) : Y > X / sqrt 3 ↔ X < X / 2 + sqrt 3 / 2 * Y := by
  rw [gt_iff_lt, div_lt_iff₀ s3pos]
  constructor <;> intro h <;> linarith

theorem hexR_eq (X Y : ℝ) [Decidable (Y > X / sqrt 3)] : (if Y > X / sqrt 3 then X * 0.5 + Y * 0.5 * sqrt 3 else X) =
    max X (X / 2 + sqrt 3 / 2 * Y) := by
  by_cases h : Y > X / sqrt 3
  · rw [if_pos h, max_eq_right ((rot_iff X Y).mp h).le]; ring
  · rw [if_neg h, max_eq_left (not_lt.mp ((rot_iff X Y).not.mp h))]

theorem hex_const : ((3 : ℝ) ^ (0.25 : ℝ) * (2 / π) ^ (0.5 : ℝ)) = 2 / sqrt 3 * (3 * sqrt 3 / (2 * π)) ^ (0.5 : ℝ) := by
  have hp := pi_pos
  have h3 := s3pos
  have a : ((3 : ℝ) ^ (0.25 : ℝ)) ^ 2 = sqrt 3 := by
    rw [← rpow_natCast, ← rpow_mul (by norm_num), sqrt_eq_rpow]; norm_num
  have b : ((2 / π) ^ (0.5 : ℝ)) ^ 2 = 2 / π := by rw [rpow_half]; exact sq_sqrt (by positivity)
  have c : ((3 * sqrt 3 / (2 * π)) ^ (0.5 : ℝ)) ^ 2 = 3 * sqrt 3 / (2 * π) := by rw [rpow_half]; exact sq_sqrt (by positivity)
  have l : 0 ≤ (3 : ℝ) ^ (0.25 : ℝ) * (2 / π) ^ (0.5 : ℝ) := by positivity
  have r : 0 ≤ 2 / sqrt 3 * (3 * sqrt 3 / (2 * π)) ^ (0.5 : ℝ) := by positivity
  rw [← sq_eq_sq₀ l r, mul_pow, mul_pow, a, b, c, div_pow, sq_sqrt (by norm_num : (0:ℝ) ≤ 3)]
  field_simp

theorem copysign_sq (a s : ℝ) : copysign a s ^ 2 = a ^ 2 := by
  unfold copysign; split <;> simp

/-- planar radius of the image -/
theorem hex_radius (p : ℝ × ℝ) : (hexagonToHemisphere p).x ^ 2 + (hexagonToHemisphere p).y ^ 2 = 4 / 3 * hexR p ^ 2 ∧
    (hexagonToHemisphere p).z = 1 - 4 / 3 * hexR p ^ 2 := by
  have hp := pi_pos
  have h3 := s3pos
  have hD : 0 < (3 * sqrt 3 / (2 * π)) ^ (0.5 : ℝ) := by positivity
  unfold hexagonToHemisphere
  simp only [hexR_eq]
  rw [← hexR, hex_const]
  set D := (3 * sqrt 3 / (2 * π)) ^ (0.5 : ℝ)
  set R := hexR p
  by_cases h0 : p.1 = 0 ∧ p.2 = 0
  · have : R = 0 := by simp [R, hexR, h0]
    rw [if_pos h0, this]; norm_num
  · simp only [if_neg h0]
    have key : ∀ t : ℝ, ∀ a b : ℝ, a ^ 2 + b ^ 2 = (2 / sqrt 3 * D * R) ^ 2 →
        (copysign a p.2 / D) ^ 2 + (copysign b p.1 / D) ^ 2 = 4 / 3 * R ^ 2 := by
      intro _ a b h
      rw [div_pow, div_pow, copysign_sq, copysign_sq, ← add_div, h, mul_pow, mul_pow, div_pow, sq_sqrt (by norm_num : (0:ℝ) ≤ 3)]
      field_simp
      ring
    generalize hyn : (if |p.1| > |p.2| / sqrt 3 then -|p.2| * 0.5 * sqrt 3 + |p.1| * 0.5 else |p.1|) = yn
    have ht := sin_sq_add_cos_sq (yn * π / (2 * sqrt 3 * R))
    generalize yn * π / (2 * sqrt 3 * R) = θ at *
    have hsum : ∀ (c : Prop) [Decidable c], (if c then 2 / sqrt 3 * D * R * cos θ * 0.5 - 2 / sqrt 3 * D * R * sin θ * 0.5 * sqrt 3
          else 2 / sqrt 3 * D * R * cos θ) ^ 2 +
        (if c then 2 / sqrt 3 * D * R * cos θ * 0.5 * sqrt 3 + 2 / sqrt 3 * D * R * sin θ * 0.5 else 2 / sqrt 3 * D * R * sin θ) ^ 2
        = (2 / sqrt 3 * D * R) ^ 2 := by
      intro c _
      generalize 2 / sqrt 3 * D * R = A
      split
      · have := s3sq
        linear_combination (A ^ 2) * ht + (A ^ 2 / 4 * (cos θ ^ 2 + sin θ ^ 2)) * this
      · linear_combination (A ^ 2) * ht
    have := key θ _ _ (hsum (|p.1| > |p.2| / sqrt 3))
    constructor
    · linarith
    · linarith

theorem hexR_nonneg (p : ℝ × ℝ) : 0 ≤ hexR p := le_max_of_le_left (abs_nonneg _)

theorem hexR_le (p : ℝ × ℝ) : hexR p ≤ sqrt 3 / 2 ↔ InHexagon p := by
  unfold hexR InHexagon
  rw [max_le_iff]
  constructor <;> rintro ⟨a, b⟩ <;> exact ⟨a, by linarith⟩

/-- C89: the filter `z ≥ 0` that follows the hexagon map keeps exactly the points of the unit hexagon. -/
theorem C89_hexagon_inside (p : ℝ × ℝ) : 0 ≤ (hexagonToHemisphere p).z ↔ InHexagon p := by
  rw [(hex_radius p).2, ← hexR_le]
  have h := hexR_nonneg p
  have h3 := s3pos
  have hs := s3sq
  constructor
  · intro h'
    by_contra hc
    have hc := not_le.mp hc
    nlinarith
  · intro h'
    nlinarith

/-- C89 fails for the hexagon map: an image is a unit vector only for the centre and for the edge of the hexagon; the image
of every other point is off the unit sphere. -/
theorem C89_hexagon_fails (p : ℝ × ℝ) (h : InHexagon p) :
    IsUnit3 (hexagonToHemisphere p) ↔ p = (0, 0) ∨ hexR p = sqrt 3 / 2 := by
  obtain ⟨h1, h2⟩ := hex_radius p
  unfold IsUnit3
  rw [h1, h2]
  have hn := hexR_nonneg p
  have h3 := s3pos
  have hs := s3sq
  constructor
  · intro he
    have : hexR p ^ 2 * (4 * hexR p ^ 2 - 3) = 0 := by linarith
    rcases mul_eq_zero.mp this with h | h
    · left
      have h0 : hexR p = 0 := by simpa using h
      have hle := le_max_left |p.2| (|p.2| / 2 + sqrt 3 / 2 * |p.1|)
      have hle2 := le_max_right |p.2| (|p.2| / 2 + sqrt 3 / 2 * |p.1|)
      change |p.2| ≤ hexR p at hle
      change _ ≤ hexR p at hle2
      rw [h0] at hle hle2
      have a : |p.2| = 0 := le_antisymm hle (abs_nonneg _)
      rw [a] at hle2
      have b : |p.1| = 0 := by
        refine le_antisymm ?_ (abs_nonneg _)
        by_contra hc
        have := mul_pos (by positivity : 0 < sqrt 3 / 2) (not_le.mp hc)
        linarith
      ext
      · simpa using b
      · simpa using a
    · right
      have : (2 * hexR p - sqrt 3) * (2 * hexR p + sqrt 3) = 0 := by linarith
      rcases mul_eq_zero.mp this with h | h <;> linarith
  · rintro (rfl | h)
    · have : hexR (0, 0) = 0 := by simp [hexR]
      rw [this]; norm_num
    · rw [h]; nlinarith

/-- a point strictly inside: the image has squared length 13/16 -/
example : InHexagon (0, sqrt 3 / 4) ∧ ¬ IsUnit3 (hexagonToHemisphere (0, sqrt 3 / 4)) := by
  have h3 := s3pos
  have hi : InHexagon (0, sqrt 3 / 4) := by
    unfold InHexagon
    simp only [abs_zero]
    rw [abs_of_pos (by positivity)]
    constructor <;> linarith
  refine ⟨hi, ?_⟩
  rw [C89_hexagon_fails _ hi]
  rintro (h | h)
  · have := congrArg Prod.snd h
    simp at this
  · unfold hexR at h
    simp only [abs_zero] at h
    rw [abs_of_pos (by positivity), max_eq_left (by linarith)] at h
    linarith

/-! ### C91: the trigonal space groups 143-155 -/

theorem z3_cube (v : V) : z3 (z3 (z3 v)) = v := by
  have h := s3sq
  unfold z3
  ext <;> simp only
  · linear_combination (3 * v.x / 8 + sqrt 3 * v.y / 8) * h
  · linear_combination (3 * v.y / 8 - sqrt 3 * v.x / 8) * h

/-- azimuth strictly between 90° and 120° -/
def secA (v : V) : Prop := v.x < 0 ∧ 0 < sqrt 3 * v.x + v.y

/-- some image under the three-fold axis has azimuth between 90° and 120° -/
def secT (v : V) : Prop := secA v ∨ secA (z3 v) ∨ secA (z3 (z3 v))

theorem secT_z3 {v : V} (h : secT v) : secT (z3 v) := by
  rcases h with h | h | h
  · right; right; rwa [z3_cube]
  · exact .inl h
  · exact .inr (.inl h)

theorem secT_neg {v : V} (h : secT v) : v.x < 0 ∨ v.y < 0 := by
  have hs := s3sq
  have h3 := s3pos
  rcases h with h | ⟨h1, h2⟩ | ⟨h1, h2⟩
  · exact .inl h.1
  · right
    simp only [z3] at h1 h2
    nlinarith
  · left
    simp only [z3] at h1 h2
    have k1 : -((-(v.x / 2) - sqrt 3 / 2 * v.y) / 2) - sqrt 3 / 2 * (sqrt 3 / 2 * v.x - v.y / 2) = (-v.x + sqrt 3 * v.y) / 2 := by
      linear_combination (-(v.x / 4)) * hs
    have k2 : sqrt 3 / 2 * (-(v.x / 2) - sqrt 3 / 2 * v.y) - (sqrt 3 / 2 * v.x - v.y / 2) / 2 = -(sqrt 3 * v.x / 2) - v.y / 2 := by
      linear_combination (-(v.y / 4)) * hs
    rw [k1] at h1 h2
    rw [k2] at h2
    have e1 : -v.x + sqrt 3 * v.y < 0 := by linarith
    have e2 : 0 < -(sqrt 3 * v.x) + v.y := by nlinarith
    nlinarith

theorem equiv_pred {G : List (V → V)} {u v : V} (h : Dir.Equiv G u v) (P : V → Prop) (hP : ∀ g ∈ G, ∀ a, P a → P (g a)) (hu : P u) :
    P v := by
  induction h with
  | refl => exact hu
  | tail _ hs ih => obtain ⟨g, hg, rfl⟩ := hs; exact hP g hg _ ih

/-- the rows of a hexagonal sampling type -/
theorem grid_hex {pg sg st w : ℕ} (hst : stnumOf pg sg = some st) (h1 : st ∈ [10, 12, 16]) :
    ∃ rows, kvectorsGrid pg sg false w = some rows ∧ ∀ r ∈ rows, ∃ i j : ℤ, 0 ≤ i ∧ 0 ≤ j ∧
      r.1.x = (hexagonToHemisphere (xyOf w (i, j))).x ∧ r.1.y = (hexagonToHemisphere (xyOf w (i, j))).y ∧
      (st ≠ 10 → 0 ≤ r.1.z) := by
  have hk : ∀ i j : ℤ, keep st (i, j) = true → 0 ≤ i ∧ 0 ≤ j := by
    intro i j h
    simp only [List.mem_cons, List.not_mem_nil, or_false] at h1
    rcases h1 with rfl | rfl | rfl <;> simp [keep] at h <;> omega
  have hs : withSouth st = true ↔ st = 10 := by
    simp only [List.mem_cons, List.not_mem_nil, or_false] at h1
    rcases h1 with rfl | rfl | rfl <;> simp [withSouth]
  have hu : usesHex st = true := by
    simp only [List.mem_cons, List.not_mem_nil, or_false] at h1
    rcases h1 with rfl | rfl | rfl <;> simp [usesHex]
  have hn : ¬ (st = 11 ∨ st = 13 ∨ 20 ≤ st ∨ st = 0) := by
    simp only [List.mem_cons, List.not_mem_nil, or_false] at h1
    omega
  unfold kvectorsGrid
  rw [hst]
  simp only [Option.bind_some, if_neg hn, Bool.false_eq_true, and_false, if_false, hu, if_true]
  refine ⟨_, rfl, fun r hr => ?_⟩
  have north : ∀ r : V × ℤ × ℤ × ℤ, r ∈ List.filter (open Classical in fun r : V × ℤ × ℤ × ℤ => decide (r.1.z ≥ 0))
      (List.map (fun p : ℤ × ℤ => (hexagonToHemisphere (xyOf w p), p.1, p.2, (1:ℤ))) (List.filter (keep st) (gridIJ w))) →
      ∃ i j : ℤ, 0 ≤ i ∧ 0 ≤ j ∧ r.1 = hexagonToHemisphere (xyOf w (i, j)) ∧ 0 ≤ r.1.z := by
    intro r hr
    rw [List.mem_filter, List.mem_map] at hr
    obtain ⟨⟨⟨i, j⟩, hm, rfl⟩, hz⟩ := hr
    rw [List.mem_filter] at hm
    obtain ⟨a, b⟩ := hk i j hm.2
    exact ⟨i, j, a, b, rfl, by simpa using hz⟩
  split at hr
  · rename_i hsouth
    rcases List.mem_append.mp hr with hr | hr
    · obtain ⟨i, j, a, b, c, d⟩ := north r hr
      exact ⟨i, j, a, b, by rw [c], by rw [c], fun _ => d⟩
    · obtain ⟨r', hr', rfl⟩ := List.mem_map.mp hr
      obtain ⟨i, j, a, b, c, d⟩ := north r' hr'
      exact ⟨i, j, a, b, by rw [c], by rw [c], fun h => absurd (hs.mp hsouth) h⟩
  · obtain ⟨i, j, a, b, c, d⟩ := north r hr
    exact ⟨i, j, a, b, by rw [c], by rw [c], fun _ => d⟩

theorem hex_quadrant {p : ℝ × ℝ} (h1 : 0 ≤ p.1) (h2 : 0 ≤ p.2) :
    0 ≤ (hexagonToHemisphere p).x ∧ 0 ≤ (hexagonToHemisphere p).y := by
  unfold hexagonToHemisphere
  by_cases h0 : p.1 = 0 ∧ p.2 = 0
  · simp [h0]
  · simp only [if_neg h0, copysign, if_neg (not_lt.mpr h1), if_neg (not_lt.mpr h2)]
    constructor <;> exact div_nonneg (abs_nonneg _) (by positivity)

/-- the direction of the grid point (-1, 3) -/
theorem hex_m13 {w : ℕ} (hw : 4 ≤ w) : secA (hexagonToHemisphere (xyOf w (-1, 3))) ∧
    0 < (hexagonToHemisphere (xyOf w (-1, 3))).z ∧ InHexagon (xyOf w (-1, 3)) := by
  have hp := pi_pos
  have h3 := s3pos
  have hs := s3sq
  have hw4 : (4:ℝ) ≤ w := by exact_mod_cast hw
  have hw0 : (0:ℝ) < w := by linarith
  have hs1 : sqrt 3 < 2 := by nlinarith
  have hs2 : 3 / 2 < sqrt 3 := by nlinarith
  have hx : xyOf w (-1, 3) = (-(1 / (w:ℝ)), 3 / (w:ℝ)) := by unfold xyOf; push_cast; ext <;> simp; ring
  rw [hx]
  have a1 : |(-(1 / (w:ℝ)))| = 1 / w := by rw [abs_neg, abs_of_pos (by positivity)]
  have a2 : |(3 / (w:ℝ))| = 3 / w := abs_of_pos (by positivity)
  have hw1 : 1 / (w:ℝ) ≤ 1 / 4 := one_div_le_one_div_of_le (by norm_num) hw4
  have hwp : 0 < 1 / (w:ℝ) := by positivity
  have e3 : 3 / (w:ℝ) = 3 * (1 / w) := by ring
  have hR : hexR (-(1 / (w:ℝ)), 3 / (w:ℝ)) = 3 / w := by
    unfold hexR
    simp only [a1, a2]
    rw [max_eq_left]
    rw [e3]; nlinarith
  refine ⟨?_, ?_, ?_⟩
  · have hnr : ¬ (1 / (w:ℝ) > 3 / w / sqrt 3) := by
      rw [rot_iff, not_lt, e3]; nlinarith
    unfold hexagonToHemisphere
    simp only [a1, a2, if_neg hnr]
    rw [if_neg (by rintro ⟨h, -⟩; linarith)]
    have harg : 1 / (w:ℝ) * π / (2 * sqrt 3 * (3 / w)) = π / (6 * sqrt 3) := by field_simp; norm_num
    rw [harg]
    have hθ1 : 0 < π / (6 * sqrt 3) := by positivity
    have hθ2 : π / (6 * sqrt 3) < π / 6 := by
      apply div_lt_div_of_pos_left hp (by norm_num); linarith
    have hsin := sin_pos_of_pos_of_lt_pi hθ1 (by linarith)
    have hsin2 : sin (π / (6 * sqrt 3)) < 1 / 2 := by
      rw [← sin_pi_div_six]; exact sin_lt_sin_of_lt_of_le_pi_div_two (by linarith) (by linarith) hθ2
    have hcos2 : sqrt 3 / 2 < cos (π / (6 * sqrt 3)) := by
      rw [← cos_pi_div_six]; exact cos_lt_cos_of_nonneg_of_le_pi hθ1.le (by linarith) hθ2
    have hF : 0 < (3:ℝ) ^ (0.25:ℝ) * (2 / π) ^ (0.5:ℝ) * (3 / w) := by positivity
    have hD : 0 < (3 * sqrt 3 / (2 * π)) ^ (0.5 : ℝ) := by positivity
    generalize (3:ℝ) ^ (0.25:ℝ) * (2 / π) ^ (0.5:ℝ) * (3 / w) = F at *
    generalize (3 * sqrt 3 / (2 * π)) ^ (0.5 : ℝ) = D at *
    generalize sin (π / (6 * sqrt 3)) = S at *
    generalize cos (π / (6 * sqrt 3)) = C at *
    have hC : 0 < C := by linarith
    unfold secA copysign
    simp only [if_neg (not_lt.mpr (by positivity : (0:ℝ) ≤ 3 / w)), if_pos (by linarith : -(1 / (w:ℝ)) < 0),
      abs_of_pos (mul_pos hF hsin), abs_of_pos (mul_pos hF hC)]
    constructor
    · exact div_neg_of_neg_of_pos (by have := mul_pos hF hsin; linarith) hD
    · have : sqrt 3 * (-(F * S) / D) + F * C / D = (F * (C - sqrt 3 * S)) / D := by ring
      rw [this]
      refine div_pos (mul_pos hF ?_) hD
      nlinarith
  · rw [(hex_radius _).2, hR, e3]; nlinarith
  · rw [← hexR_le, hR, e3]; nlinarith

/-- C91 fails for the trigonal space groups 143-155: for every half width from four on, a direction inside the hexagon is
equivalent to no sampled direction (the masks keep a quadrant of azimuths, 90° out of the 120° needed). -/
theorem C91_trigonal_fails (sg w : ℕ) (h1 : 143 ≤ sg) (h2 : sg ≤ 155) (hw : 4 ≤ w) :
    ∃ rows, kvectorsGrid (Cryst.pgNum sg) sg false w = some rows ∧ ∃ i j : ℤ, |i| ≤ w ∧ |j| ≤ w ∧ InHexagon (xyOf w (i, j)) ∧
      ∀ r ∈ rows, ¬ Dir.Equiv (gens sg) (hexagonToHemisphere (xyOf w (i, j))) r.1 := by
  have t : ∀ k < 13, (pgOfSpaceGroup (k + 143), stnumOf (Cryst.pgNum (k + 143)) (k + 143)) ∈
      [(PG.p3, some 10), (PG.b3, some 12), (PG.b3, some 16), (PG.p32, some 16)] := by decide +kernel
  have ht := t (sg - 143) (by omega)
  rw [Nat.sub_add_cancel h1] at ht
  obtain ⟨hA, hz, hin⟩ := hex_m13 hw
  -- the general argument
  have main : ∀ st ∈ [10, 12, 16], stnumOf (Cryst.pgNum sg) sg = some st → ∀ P : V → Prop,
      (∀ g ∈ gens sg, ∀ a, P a → P (g a)) → P (hexagonToHemisphere (xyOf w (-1, 3))) →
      (∀ v : V, 0 ≤ v.x → 0 ≤ v.y → (st ≠ 10 → 0 ≤ v.z) → ¬ P v) →
      ∃ rows, kvectorsGrid (Cryst.pgNum sg) sg false w = some rows ∧ ∃ i j : ℤ, |i| ≤ w ∧ |j| ≤ w ∧ InHexagon (xyOf w (i, j)) ∧
        ∀ r ∈ rows, ¬ Dir.Equiv (gens sg) (hexagonToHemisphere (xyOf w (i, j))) r.1 := by
    intro st hmem hst P hP h0 hno
    obtain ⟨rows, hr, hm⟩ := grid_hex (w := w) hst hmem
    refine ⟨rows, hr, -1, 3, by simp; omega, by simp; omega, hin, fun r hrm he => ?_⟩
    obtain ⟨i, j, hi, hj, hx, hy, hzz⟩ := hm r hrm
    have hw0 : (0:ℝ) ≤ w := Nat.cast_nonneg w
    obtain ⟨q1, q2⟩ := hex_quadrant (p := xyOf w (i, j)) (div_nonneg (by exact_mod_cast hi) hw0)
      (div_nonneg (by exact_mod_cast hj) hw0)
    exact hno r.1 (by rw [hx]; exact q1) (by rw [hy]; exact q2) hzz (equiv_pred he P hP h0)
  -- groups with an element exchanging the hemispheres
  have flip : ∀ s : V → V, (∀ v, s (s v) = v) → (∀ v, (s v).z = -v.z) → (∀ v, s (z3 v) = z3 (s v) ∨ s (z3 v) = z3 (z3 (s v))) →
      gens sg = [z3, s] → ∀ st ∈ [12, 16], stnumOf (Cryst.pgNum sg) sg = some st →
      ∃ rows, kvectorsGrid (Cryst.pgNum sg) sg false w = some rows ∧ ∃ i j : ℤ, |i| ≤ w ∧ |j| ≤ w ∧ InHexagon (xyOf w (i, j)) ∧
        ∀ r ∈ rows, ¬ Dir.Equiv (gens sg) (hexagonToHemisphere (xyOf w (i, j))) r.1 := by
    intro s hss hsz hs3 hG st hmem hst
    refine main st (by simp at hmem ⊢; omega) hst (fun v => (secT v ∧ 0 < v.z) ∨ (secT (s v) ∧ v.z < 0)) ?_ (.inl ⟨.inl hA, hz⟩) ?_
    · intro g hg a ha
      rw [hG] at hg
      simp only [List.mem_cons, List.not_mem_nil, or_false] at hg
      have z3z : (z3 a).z = a.z := rfl
      rcases hg with rfl | rfl
      · rcases ha with ⟨ha, hz'⟩ | ⟨ha, hz'⟩
        · exact .inl ⟨secT_z3 ha, hz'⟩
        · right
          refine ⟨?_, hz'⟩
          rcases hs3 a with h | h <;> rw [h]
          · exact secT_z3 ha
          · exact secT_z3 (secT_z3 ha)
      · rcases ha with ⟨ha, hz'⟩ | ⟨ha, hz'⟩
        · right; rw [hss, hsz]; exact ⟨ha, by linarith⟩
        · left; rw [hsz]; exact ⟨ha, by linarith⟩
    · rintro v hx hy hz' (⟨h, _⟩ | ⟨_, h⟩)
      · rcases secT_neg h with h | h <;> linarith
      · have := hz' (by simp at hmem; omega)
        linarith
  have cx : ∀ v, x2 (z3 v) = z3 (x2 v) ∨ x2 (z3 v) = z3 (z3 (x2 v)) := by
    intro v; right; have hs := s3sq
    unfold x2 z3
    ext <;> simp only
    · linear_combination (v.x / 4) * hs
    · linear_combination (-(v.y / 4)) * hs
  have cy : ∀ v, y2 (z3 v) = z3 (y2 v) ∨ y2 (z3 v) = z3 (z3 (y2 v)) := by
    intro v; right; have hs := s3sq
    unfold y2 z3
    ext <;> simp only
    · linear_combination (-(v.x / 4)) * hs
    · linear_combination (v.y / 4) * hs
  have ci : ∀ v, inv (z3 v) = z3 (inv v) ∨ inv (z3 v) = z3 (z3 (inv v)) := by
    intro v; left
    unfold inv z3
    ext <;> simp only <;> ring
  simp only [List.mem_cons, Prod.mk.injEq, List.not_mem_nil, or_false] at ht
  rcases ht with ⟨hp, hst⟩ | ⟨hp, hst⟩ | ⟨hp, hst⟩ | ⟨hp, hst⟩
  · refine main 10 (by simp) hst secT ?_ (.inl hA) ?_
    · intro g hg a ha
      simp only [gens, hp, List.mem_cons, List.not_mem_nil, or_false] at hg
      subst hg; exact secT_z3 ha
    · intro v hx hy _ h
      rcases secT_neg h with h | h <;> linarith
  · exact flip inv (by intro v; simp [inv]) (by intro v; simp [inv]) ci (by simp only [gens, hp]) 12 (by simp) hst
  · exact flip inv (by intro v; simp [inv]) (by intro v; simp [inv]) ci (by simp only [gens, hp]) 16 (by simp) hst
  · by_cases hc : sg ∈ [149, 151, 153]
    · exact flip y2 (by intro v; simp [y2]) (by intro v; simp [y2]) cy (by simp only [gens, hp, if_pos hc]) 16 (by simp) hst
    · exact flip x2 (by intro v; simp [x2]) (by intro v; simp [x2]) cx (by simp only [gens, hp, if_neg hc]) 16 (by simp) hst

example : 143 ≤ 148 ∧ 148 ≤ 155 ∧ 4 ≤ 10 := by norm_num

end Verif.KV
