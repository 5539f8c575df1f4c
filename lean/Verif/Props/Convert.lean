import Verif.Model.Convert
import Verif.Spec.Representation
import Verif.Props.HoAccuracy
import Verif.Props.AxisAngle
/-! C118: the seven representations of a rotation are converted consistently. -/
namespace Verif.Conv
open Verif Verif.Spec Verif.Cubo Verif.HoFit Verif.HoAcc Real

/-- A cubochoric vector names the rotation of its image in the homochoric ball (the cube-to-ball map of C84). -/
def CuNames (A : Argsort) (c : V) (f : V → V) : Prop := HoNames (cu2ho A c) f

theorem qu_iff {q : Q} {f : V → V} : QuNames q f ↔ IsUnit4 q ∧ ∀ v, f v = quApply q v := by
  constructor
  · rintro ⟨h1, h2⟩
    refine ⟨h1, fun v => ?_⟩
    have h3 : vecH (f v) = vecH (quApply q v) := (h2 v).symm.trans (rotates_apply_scaled q v)
    have hx := congrArg (fun h => h.imI) h3
    have hy := congrArg (fun h => h.imJ) h3
    have hz := congrArg (fun h => h.imK) h3
    exact V.ext hx hy hz
  · rintro ⟨h1, h2⟩
    refine ⟨h1, fun v => ?_⟩
    rw [h2]; exact rotates_apply_scaled q v

theorem ax_qu {a : AX} {f : V → V} (h : AxNames a f) : QuNames (ax2qu a) f := by
  rw [qu_iff]
  exact ⟨ax2qu_unit h.1, fun v => by rw [h.2, ax2qu_apply h.1]⟩

theorem qu_ax_iff {a : AX} {f : V → V} (hu : IsUnit3 a.n) (h : QuNames (ax2qu a) f) : AxNames a f := by
  rw [qu_iff] at h
  exact ⟨hu, fun v => by rw [h.2, ax2qu_apply hu]⟩

theorem qu_sign {p q : Q} {f : V → V} (hp : IsUnit4 p) (h : SameUpToSign (toH p) (toH q)) (hq : QuNames q f) : QuNames p f := by
  rw [qu_iff] at hq ⊢
  refine ⟨hp, fun v => ?_⟩
  rcases h with h | h
  · rw [toH_inj h]; exact hq.2 v
  · rw [← toH_neg] at h
    rw [toH_inj h, hq.2]
    unfold quApply Q.neg
    ext <;> dsimp only <;> ring

theorem qu_om {q : Q} {f : V → V} (h : QuNames q f) : OmNames (qu2om q) f := by
  refine ⟨qu2om_isRotation h.1, fun v => ?_⟩
  rw [(qu_iff.mp h).2, qu2om_apply]

theorem qu_bu {q : Q} {f : V → V} (h : QuNames q f) : BuNames (qu2bu q) f := by
  intro v
  obtain ⟨h1, -, h2⟩ := C19_bu2qu (qu2bu q)
  have hs := (C19_roundtrip q h.1).1
  have h3 := qu_iff.mp (qu_sign h1 hs h)
  have h4 := qu_iff.mp (⟨h1, h2⟩ : QuNames (bu2qu (qu2bu q)) _)
  rw [h3.2, h4.2]

theorem bu_qu {b : BU} {f : V → V} (h : BuNames b f) : QuNames (bu2qu b) f := by
  obtain ⟨h1, -, h2⟩ := C19_bu2qu b
  exact ⟨h1, fun v => by rw [h v]; exact h2 v⟩

theorem ro_ax {r : RO} {f : V → V} (h : RoNames r f) : AxNames (ro2ax r) f ∧
    (∀ t, r.mag = .fin t → (ro2ax r).ang = 2 * arctan t) ∧ (r.mag = .inf → (ro2ax r).ang = π) := by
  obtain ⟨hu, w, hw, hf⟩ := h
  obtain ⟨n, m⟩ := r
  dsimp only at hu hw hf ⊢
  rcases hw with ⟨rfl, rfl⟩ | ⟨rfl, hw⟩
  · exact ⟨⟨hu, hf⟩, by simp, by simp [ro2ax]⟩
  · have hw' := abs_lt.mp hw
    have harc : 2 * arctan (tan (w / 2)) = w := by
      rw [arctan_tan (by linarith) (by linarith)]; ring
    unfold ro2ax
    dsimp only
    by_cases h0 : |tan (w / 2)| = 0
    · rw [abs_eq_zero] at h0
      have hw0 : w = 0 := by rw [← harc, h0]; simp
      rw [if_pos (by rw [h0]; simp)]
      refine ⟨⟨by unfold IsUnit3; norm_num, fun v => ?_⟩, ?_, by simp⟩
      · rw [hf, hw0]
        unfold rotateAbout
        ext <;> simp
      · intro t ht
        have : tan (w / 2) = t := by injection ht
        rw [← this, h0]; simp
    · rw [if_neg h0, V.norm_eq_one hu, V.sdiv_one, harc]
      refine ⟨⟨hu, hf⟩, ?_, by simp⟩
      intro t ht
      have : tan (w / 2) = t := by injection ht
      rw [← this, harc]

theorem ax_ro {a : AX} {f : V → V} (h : AxNames a f) (hw : |a.ang| < π) : RoNames (ax2ro a) f :=
  ⟨h.1, a.ang, Or.inr ⟨rfl, hw⟩, h.2⟩

theorem ax_ho {a : AX} {f : V → V} (h : AxNames a f) (h0 : 0 ≤ a.ang) (h1 : a.ang ≤ π) : HoNames (ax2ho a) f := by
  refine ⟨a.n, a.ang, h.1, h0, h1, h.2, ?_⟩
  unfold ax2ho V.smul
  rw [show (0.75 : ℝ) = 3 / 4 by norm_num]

theorem ax_om {a : AX} {f : V → V} (h : AxNames a f) (h0 : 0.05 < a.ang) : OmNames (ax2om a) f := by
  rw [ax2om_exact a h.1 h0]; exact qu_om (ax_qu h)

theorem ax_om_small {a : AX} {f : V → V} (h : AxNames a f) (h0 : 0 ≤ a.ang) : OmNear 1e-6 (ax2om a) f := by
  refine ⟨_, qu_om (ax_qu h), fun i j => ?_⟩
  by_cases hc : 0.05 < a.ang
  · rw [ax2om_exact a h.1 hc]; norm_num
  · exact C18_small_angle a h.1 h0 (by linarith) i j

theorem near_refl {n : V} {w δ : ℝ} {f : V → V} (hu : IsUnit3 n) (hf : ∀ v, f v = rotateAbout n w v) (hδ : 0 ≤ δ) : Near δ f f :=
  ⟨n, w, w, hu, by simpa using hδ, hf, hf⟩

theorem rot_zero (n : V) (v : V) : rotateAbout n 0 v = v := by
  unfold rotateAbout; ext <;> simp

theorem ho_zero : HoNames ⟨0, 0, 0⟩ id := by
  refine ⟨⟨0, 0, 1⟩, 0, by unfold IsUnit3; norm_num, le_rfl, pi_pos.le, fun v => by rw [rot_zero]; rfl, ?_⟩
  have : ((0 : ℝ)) ^ ((1 : ℝ) / 3) = 0 := zero_rpow (by norm_num)
  simp

theorem qu_ho {q : Q} {f : V → V} (h : QuNames q f) (hw : 0 ≤ q.w) : ∃ g, Near 1e-8 f g ∧ HoNames (qu2ho q) g := by
  obtain ⟨a, hu, h0, h1, ha, hh⟩ := qu2ho_axis q h.1 hw
  rw [← ha] at h
  have hf := qu_ax_iff hu h
  rcases hh with ⟨k1, k2⟩ | k2
  · refine ⟨id, ⟨a.n, a.ang, 0, hu, ?_, hf.2, fun v => by rw [rot_zero]; rfl⟩, ?_⟩
    · rw [zero_sub, abs_neg, abs_of_nonneg h0]; exact k1.le
    · rw [k2]; exact ho_zero
  · exact ⟨f, near_refl hu hf.2 (by norm_num), by rw [k2]; exact ax_ho hf h0 h1⟩

theorem qu_cu (A B : Argsort) {q : Q} {f : V → V} (h : QuNames q f) (hw : 0 ≤ q.w) :
    ∃ g, Near 1e-8 f g ∧ CuNames A (qu2cu B q) g := by
  obtain ⟨g, h1, h2⟩ := qu_ho h hw
  refine ⟨g, h1, ?_⟩
  unfold CuNames qu2cu
  rw [C84_cu2ho_ho2cu]; exact h2

theorem qu_ax {q : Q} {f : V → V} (h : QuNames q f) (hw : 0 ≤ q.w) : AxNames (qu2ax q) f := by
  obtain ⟨h1, h2, -, -⟩ := C16_qu2ax_partial q h.1 hw
  exact qu_ax_iff h2 (by rw [h1]; exact h)

theorem qu_ro {q : Q} {f : V → V} (h : QuNames q f) (hw : q.w = 0 ∨ 1e-10 ≤ |q.w|) (h1 : q.w < 1) (h2 : 0 ≤ q.w) :
    RoNames (qu2ro q) f := by
  obtain ⟨hm1, hm2⟩ := unit_w_mem h.1
  have hsq : q.x ^ 2 + q.y ^ 2 + q.z ^ 2 = 1 - q.w ^ 2 := by have := h.1; unfold IsUnit4 at this; linarith
  have hpos : 0 < 1 - q.w ^ 2 := by nlinarith
  have hr : 0 < sqrt (1 - q.w ^ 2) := sqrt_pos.mpr hpos
  have hsin : sin (arccos q.w) = sqrt (1 - q.w ^ 2) := sin_arccos _
  have hcos : cos (arccos q.w) = q.w := cos_arccos hm1 hm2
  set n : V := ⟨q.x * (1 / sqrt (1 - q.w ^ 2)), q.y * (1 / sqrt (1 - q.w ^ 2)), q.z * (1 / sqrt (1 - q.w ^ 2))⟩ with hn
  have hun : IsUnit3 n := by
    unfold IsUnit3
    rw [hn]
    dsimp only
    have : (1 / sqrt (1 - q.w ^ 2)) ^ 2 = 1 / (1 - q.w ^ 2) := by rw [div_pow, sq_sqrt hpos.le, one_pow]
    rw [mul_pow, mul_pow, mul_pow, this, ← add_mul, ← add_mul, hsq]
    field_simp
  have hq : ax2qu ⟨n, 2 * arccos q.w⟩ = q := by
    unfold ax2qu
    dsimp only
    rw [show 2 * arccos q.w / 2 = arccos q.w by ring, hsin, hcos, hn]
    ext <;> dsimp only <;> field_simp
  have hf := qu_ax_iff (a := ⟨n, 2 * arccos q.w⟩) hun (by rw [hq]; exact h)
  have hle : arccos q.w ≤ π / 2 := arccos_le_pi_div_two.mpr h2
  have hnn := arccos_nonneg q.w
  unfold qu2ro
  rw [hsq, clamp1_of_mem hm1 hm2]
  dsimp only
  refine ⟨hun, 2 * arccos q.w, ?_, hf.2⟩
  rcases hw with hw | hw
  · left
    dsimp only
    rw [if_pos (by rw [hw]; norm_num), hw, arccos_zero]
    exact ⟨rfl, by ring⟩
  · right
    dsimp only
    rw [if_neg (by linarith)]
    refine ⟨by congr 2; ring, ?_⟩
    have hlt : arccos q.w < π / 2 := by
      rw [arccos_lt_pi_div_two]
      rw [abs_of_nonneg h2] at hw
      linarith [show (0 : ℝ) < 1e-10 by norm_num]
    rw [abs_of_nonneg (by linarith)]; linarith

theorem unit_w_lt {q : Q} (h : IsUnit4 q) (hne : q ≠ ⟨1, 0, 0, 0⟩) : q.w < 1 := by
  obtain ⟨-, h2⟩ := unit_w_mem h
  rcases h2.lt_or_eq with h3 | h3
  · exact h3
  · exfalso
    apply hne
    unfold IsUnit4 at h
    rw [h3] at h
    ext
    · exact h3
    · nlinarith [sq_nonneg q.x, sq_nonneg q.y, sq_nonneg q.z]
    · nlinarith [sq_nonneg q.x, sq_nonneg q.y, sq_nonneg q.z]
    · nlinarith [sq_nonneg q.x, sq_nonneg q.y, sq_nonneg q.z]

/-- C118, from an axis and an angle in `[0, π]`: every conversion names the same rotation; cubochoric coordinates up to the
`1e-8` rad below which `qu2ho` returns the origin, matrices up to `1e-6` per entry below 0.05 rad. -/
theorem C118_axis (A B : Argsort) (a : AX) (f : V → V) (h : AxNames a f) (h0 : 0 ≤ a.ang) (h1 : a.ang ≤ π) :
    QuNames (ax2qu a) f ∧ BuNames (ax2bu a) f ∧ HoNames (ax2ho a) f ∧ (a.ang < π → RoNames (ax2ro a) f) ∧
      (0.05 < a.ang → OmNames (ax2om a) f) ∧ OmNear 1e-6 (ax2om a) f ∧ ∃ g, Near 1e-8 f g ∧ CuNames A (ax2cu B a) g := by
  have hq := ax_qu h
  refine ⟨hq, qu_bu hq, ax_ho h h0 h1, fun hl => ax_ro h (by rw [abs_of_nonneg h0]; exact hl), ax_om h, ax_om_small h h0,
    qu_cu A B hq ?_⟩
  unfold ax2qu
  exact cos_nonneg_of_mem_Icc ⟨by linarith [pi_pos], by linarith⟩

/-- C118, from a Rodrigues-Frank vector: axis-angle, quaternion and Euler angles for every vector; matrices, homochoric and
cubochoric vectors for a magnitude that is not negative.  Missing: negative magnitudes, see `C118_rodrigues_fails`. -/
theorem C118_rodrigues_partial (A B : Argsort) (r : RO) (f : V → V) (h : RoNames r f) :
    AxNames (ro2ax r) f ∧ QuNames (ro2qu r) f ∧ BuNames (ro2bu r) f ∧
      ((r.mag = .inf ∨ ∃ t, 0 ≤ t ∧ r.mag = .fin t) →
        HoNames (ro2ho r) f ∧ OmNear 1e-6 (ro2om r) f ∧ (∃ g, Near 1e-8 f g ∧ CuNames A (ro2cu B r) g) ∧
        ((∀ t, r.mag = .fin t → 0.05 < 2 * arctan t) → OmNames (ro2om r) f)) := by
  obtain ⟨ha, hfin, hinf⟩ := ro_ax h
  refine ⟨ha, ax_qu ha, qu_bu (ax_qu ha), fun hm => ?_⟩
  have hang : 0 ≤ (ro2ax r).ang ∧ (ro2ax r).ang ≤ π ∧ ((∀ t, r.mag = .fin t → 0.05 < 2 * arctan t) → 0.05 < (ro2ax r).ang) := by
    rcases hm with hm | ⟨t, ht, hm⟩
    · rw [hinf hm]; exact ⟨pi_pos.le, le_rfl, fun _ => by linarith [pi_gt_three]⟩
    · rw [hfin t hm]
      have := arctan_lt_pi_div_two t
      have := arctan_nonneg.mpr ht
      exact ⟨by linarith, by linarith, fun k => k t hm⟩
  obtain ⟨-, -, h3, -, h5, h6, h7⟩ := C118_axis A B (ro2ax r) f ha hang.1 hang.2.1
  exact ⟨h3, h6, h7, fun k => h5 (hang.2.2 k)⟩

/-- C118, from Euler angles: quaternion, matrix and axis-angle for all angles; homochoric and cubochoric vectors up to `1e-8`
rad; the Rodrigues vector away from the identity and away from the rotations within `1e-10` of a half turn, which are sent to
`inf`.  Missing: the Rodrigues vector of the identity, see `C118_bunge_fails`. -/
theorem C118_bunge_partial (A B : Argsort) (b : BU) (f : V → V) (h : BuNames b f) :
    QuNames (bu2qu b) f ∧ OmNames (bu2om b) f ∧ AxNames (bu2ax b) f ∧ 0 ≤ (bu2ax b).ang ∧ (bu2ax b).ang ≤ π ∧
      (∃ g, Near 1e-8 f g ∧ HoNames (bu2ho b) g) ∧ (∃ g, Near 1e-8 f g ∧ CuNames A (bu2cu B b) g) ∧
      (f ≠ id → ((bu2qu b).w = 0 ∨ 1e-10 ≤ (bu2qu b).w) → RoNames (bu2ro b) f) := by
  have hq := bu_qu h
  have hw := (C19_bu2qu b).2.1
  obtain ⟨-, -, k1, k2⟩ := C16_qu2ax_partial _ hq.1 hw
  refine ⟨hq, qu_om hq, qu_ax hq hw, k1, k2, qu_ho hq hw, qu_cu A B hq hw, fun hne hc => ?_⟩
  refine qu_ro hq (by rw [abs_of_nonneg hw]; exact hc) (unit_w_lt hq.1 fun he => hne ?_) hw
  funext v
  rw [(qu_iff.mp hq).2, he]
  unfold quApply
  ext <;> simp

theorem om_qu {R : M3} {f : V → V} (h : OmNames R f) (ht : R 0 0 + R 1 1 + R 2 2 ≠ -1) :
    QuNames (om2qu R) f ∧ 0 < (om2qu R).w := by
  obtain ⟨h1, h2⟩ := C14_matrix_partial R h.1 ht
  obtain ⟨q, hq, hR⟩ := C13_surjective R h.1
  have hw : q.w ≠ 0 := by
    intro hw
    apply ht
    rw [← hR]
    have := hq
    unfold IsUnit4 at this
    rw [hw] at this
    simp [qu2om, hw]; linarith
  constructor
  · rw [qu_iff]
    refine ⟨h2, fun v => ?_⟩
    have h3 := h.2 v
    rw [← h1, qu2om_apply] at h3
    have hx := congrFun h3 0
    have hy := congrFun h3 1
    have hz := congrFun h3 2
    simp only [col, Matrix.cons_val] at hx hy hz
    exact V.ext hx.symm hy.symm hz.symm
  · rw [← hR]
    exact (C14_roundtrip_partial q hq hw).2

theorem ax_pos {q : Q} (hq : IsUnit4 q) (hw : 0 < q.w) (hw1 : q.w < 1) :
    ∃ a : AX, IsUnit3 a.n ∧ 0 < a.ang ∧ a.ang < π ∧ ax2qu a = q := by
  obtain ⟨a, hu, h0, h1, ha, -⟩ := qu2ho_axis q hq hw.le
  refine ⟨a, hu, lt_of_le_of_ne h0 fun h => ?_, lt_of_le_of_ne h1 fun h => ?_, ha⟩
  · rw [← ha] at hw1
    unfold ax2qu at hw1
    dsimp only at hw1
    rw [← h] at hw1
    simp at hw1
  · rw [← ha] at hw
    unfold ax2qu at hw
    dsimp only at hw
    rw [h, cos_pi_div_two] at hw
    exact lt_irrefl _ hw

/-- the matrix of a rotation about an axis by an angle strictly between 0 and π determines both -/
theorem om2ax_exact (a : AX) (hu : IsUnit3 a.n) (h0 : 0 < a.ang) (h1 : a.ang < π) : om2ax (qu2om (ax2qu a)) = a := by
  obtain ⟨n, t⟩ := a
  dsimp only at hu h0 h1
  have hs : 0 < sin t := sin_pos_of_pos_of_lt_pi h0 h1
  have hC := half_cos t
  have hS := half_sin t
  have hcs := sin_sq_add_cos_sq (t / 2)
  unfold IsUnit3 at hu
  have htr : 0.5 * (qu2om (ax2qu ⟨n, t⟩) 0 0 + qu2om (ax2qu ⟨n, t⟩) 1 1 + qu2om (ax2qu ⟨n, t⟩) 2 2 - 1) = cos t := by
    simp [qu2om, ax2qu]
    rw [hC]
    linear_combination (-0.5 * sin (t / 2) ^ 2) * hu - 0.5 * hcs
  have hang : arccos (clamp1 (cos t)) = t := by
    rw [clamp1_of_mem (neg_one_le_cos _) (cos_le_one _), arccos_cos h0.le h1.le]
  have hraw : (⟨qu2om (ax2qu ⟨n, t⟩) 2 1 - qu2om (ax2qu ⟨n, t⟩) 1 2, qu2om (ax2qu ⟨n, t⟩) 0 2 - qu2om (ax2qu ⟨n, t⟩) 2 0,
      qu2om (ax2qu ⟨n, t⟩) 1 0 - qu2om (ax2qu ⟨n, t⟩) 0 1⟩ : V) = V.smul (2 * sin t) n := by
    rw [hS]
    ext <;> simp [qu2om, ax2qu, V.smul] <;> ring
  have key : ∀ c : ℝ, 0 < c → V.sdiv (V.smul c n) (V.smul c n).norm = n := by
    intro c hc
    have : (V.smul c n).norm = c := by
      unfold V.norm V.smul
      dsimp only
      rw [show (c * n.x) ^ 2 + (c * n.y) ^ 2 + (c * n.z) ^ 2 = c ^ 2 by linear_combination c ^ 2 * hu, sqrt_sq hc.le]
    rw [this]
    unfold V.sdiv V.smul
    ext <;> dsimp only <;> field_simp
  unfold om2ax
  dsimp only
  rw [htr, hang, hraw]
  have hfac : 0 < (if t > 0.001 then 0.5 / sin t else 0.5) * (2 * sin t) := by
    split <;> positivity
  have hmul : V.smul (if t > 0.001 then 0.5 / sin t else 0.5) (V.smul (2 * sin t) n) =
      V.smul ((if t > 0.001 then 0.5 / sin t else 0.5) * (2 * sin t)) n := by
    unfold V.smul
    ext <;> dsimp only <;> ring
  rw [hmul, key _ hfac]

/-- C118, from a rotation matrix that is not a half turn: quaternion, Euler angles and cubochoric vector (up to `1e-8` rad); also
axis-angle and homochoric vector when it is not the identity either, and the Rodrigues vector when moreover the scalar part of
its quaternion is not within `1e-10` of zero.  Missing: half turns and the identity, see `C118_matrix_fails`. -/
theorem C118_matrix_partial (A B : Argsort) (R : M3) (f : V → V) (h : OmNames R f) (ht : R 0 0 + R 1 1 + R 2 2 ≠ -1) :
    QuNames (om2qu R) f ∧ BuNames (om2bu R) f ∧ (∃ g, Near 1e-8 f g ∧ CuNames A (om2cu B R) g) ∧
      (R ≠ 1 → AxNames (om2ax R) f ∧ 0 < (om2ax R).ang ∧ (om2ax R).ang < π ∧ HoNames (om2ho R) f ∧
        (1e-10 ≤ (om2qu R).w → RoNames (om2ro R) f)) := by
  obtain ⟨hq, hw⟩ := om_qu h ht
  refine ⟨hq, qu_bu hq, qu_cu A B hq hw.le, fun hne => ?_⟩
  have hR := (C14_matrix_partial R h.1 ht).1
  have hlt : (om2qu R).w < 1 := unit_w_lt hq.1 fun he => hne (by
    rw [← hR, he]
    ext i j
    fin_cases i <;> fin_cases j <;> simp [qu2om])
  obtain ⟨a, hu, h0, h1, ha⟩ := ax_pos hq.1 hw hlt
  have hom : om2ax R = a := by rw [← hR, ← ha]; exact om2ax_exact a hu h0 h1
  have hf := qu_ax_iff hu (by rw [ha]; exact hq)
  unfold om2ho om2ro
  rw [hom]
  exact ⟨hf, h0, h1, ax_ho hf h0.le h1.le, fun hc => qu_ro hq (Or.inr (by rw [abs_of_pos hw]; exact hc)) hlt hw.le⟩

/-- every vector of the homochoric ball is that of a rotation -/
theorem ho_ball (h : V) (hb : h.norm ≤ (3 * π / 4) ^ ((1 : ℝ) / 3)) : ∃ a : AX, IsUnit3 a.n ∧ 0 ≤ a.ang ∧ a.ang ≤ π ∧ ax2ho a = h := by
  have hρ : 0 ≤ h.norm := sqrt_nonneg _
  have hc : ContinuousOn (fun w : ℝ => 0.75 * (w - sin w)) (Set.Icc 0 π) := by fun_prop
  have hle : h.norm ^ 3 ≤ 0.75 * (π - sin π) := by
    have h1 : h.norm ^ 3 ≤ ((3 * π / 4) ^ ((1 : ℝ) / 3)) ^ 3 := pow_le_pow_left₀ hρ hb 3
    rw [← rpow_natCast ((3 * π / 4) ^ ((1 : ℝ) / 3)), ← rpow_mul (by positivity)] at h1
    norm_num at h1
    rw [sin_pi]
    linarith
  obtain ⟨w, ⟨hw0, hw1⟩, hw⟩ := intermediate_value_Icc pi_pos.le hc (show h.norm ^ 3 ∈ Set.Icc _ _ from
    ⟨by simp; positivity, hle⟩)
  dsimp only at hw
  have hroot : (0.75 * (w - sin w)) ^ ((1 : ℝ) / 3) = h.norm := by
    rw [hw, ← rpow_natCast, ← rpow_mul hρ]; norm_num
  by_cases h0 : h = ⟨0, 0, 0⟩
  · refine ⟨⟨⟨0, 0, 1⟩, 0⟩, by unfold IsUnit3; norm_num, le_rfl, pi_pos.le, ?_⟩
    rw [h0]
    unfold ax2ho V.smul
    have : ((0 : ℝ)) ^ ((1 : ℝ) / 3) = 0 := zero_rpow (by norm_num)
    simp
  · refine ⟨⟨V.sdiv h h.norm, w⟩, V.sdiv_unit h0, hw0, hw1, ?_⟩
    have hp := V.norm_pos h0
    unfold ax2ho
    dsimp only
    rw [hroot]
    unfold V.smul V.sdiv
    ext <;> dsimp only <;> field_simp

/-- the tolerance of `ho2ax`: rotations below 0.0021 rad may come back as the identity -/
noncomputable def hoTol (single : Bool) (w : ℝ) : ℝ := if w < 0.0021 then 0.0021 else if single then 3e-7 else 1.2e-8

/-- C118, from a homochoric vector of the ball: there is one rotation (same axis, angle within the accuracy of the fit: `3e-7` in
single and `1.2e-8` rad in double precision, or 0.0021 rad for rotations smaller than that) that every conversion names;
matrices up to `1e-6` per entry below 0.05 rad. -/
theorem C118_homochoric (single : Bool) (h : V) (hb : h.norm ≤ (3 * π / 4) ^ ((1 : ℝ) / 3)) :
    ∃ (n : V) (w w' : ℝ), IsUnit3 n ∧ 0 ≤ w ∧ w ≤ π ∧ |w' - w| ≤ hoTol single w ∧ HoNames h (rotateAbout n w) ∧
      AxNames (ho2ax single true h) (rotateAbout n w') ∧ QuNames (ho2qu single h) (rotateAbout n w') ∧
      BuNames (ho2bu single h) (rotateAbout n w') ∧ OmNear 1e-6 (ho2om single h) (rotateAbout n w') ∧
      (0.05 < w' → OmNames (ho2om single h) (rotateAbout n w')) ∧
      (w' < π → RoNames (ho2ro single h) (rotateAbout n w')) := by
  obtain ⟨a, hu, h0, h1, rfl⟩ := ho_ball h hb
  have hn : HoNames (ax2ho a) (rotateAbout a.n a.ang) := ax_ho ⟨hu, fun v => rfl⟩ h0 h1
  have hang : 0 ≤ (ho2ax single true (ax2ho a)).ang := by
    unfold ho2ax
    dsimp only
    split
    · exact le_rfl
    · rw [if_neg (by simp)]
      have := arccos_nonneg (clamp1 (ho2axPoly single ((ax2ho a).x ^ 2 + (ax2ho a).y ^ 2 + (ax2ho a).z ^ 2)))
      dsimp only
      linarith
  rcases C106_ho2ax_fast single a hu h0 h1 with ⟨k1, k2⟩ | ⟨k1, k2, k3⟩
  · have hx : AxNames (ho2ax single true (ax2ho a)) (rotateAbout a.n 0) := by
      rw [k2]
      exact ⟨by unfold IsUnit3; norm_num, fun v => by rw [rot_zero, rot_zero]⟩
    have hq := ax_qu hx
    refine ⟨a.n, a.ang, 0, hu, h0, h1, ?_, hn, hx, hq, qu_bu hq, ax_om_small hx hang, fun hc => ?_, fun _ => ax_ro hx ?_⟩
    · unfold hoTol
      rw [if_pos k1, zero_sub, abs_neg, abs_of_nonneg h0]; exact k1.le
    · norm_num at hc
    · rw [k2]; simpa using pi_pos
  · have hx : AxNames (ho2ax single true (ax2ho a)) (rotateAbout a.n (ho2ax single true (ax2ho a)).ang) := by
      refine ⟨by rw [k2]; exact hu, fun v => by rw [k2]⟩
    have hq := ax_qu hx
    refine ⟨a.n, a.ang, (ho2ax single true (ax2ho a)).ang, hu, h0, h1, ?_, hn, hx, hq, qu_bu hq, ax_om_small hx hang,
      fun hc => ax_om hx hc, fun hc => ax_ro hx (by rw [abs_of_nonneg hang]; exact hc)⟩
    unfold hoTol
    by_cases hc : a.ang < 0.0021
    · rw [if_pos hc]
      refine k3.trans ?_
      cases single <;> norm_num
    · rw [if_neg hc]; exact k3

/-- C118, from a cubochoric vector of the cube: likewise. -/
theorem C118_cubochoric (A : Argsort) (single : Bool) (c : V)
    (hc : |c.x| ≤ 1 / 2 * π ^ ((2 : ℝ) / 3) ∧ |c.y| ≤ 1 / 2 * π ^ ((2 : ℝ) / 3) ∧ |c.z| ≤ 1 / 2 * π ^ ((2 : ℝ) / 3)) :
    ∃ (n : V) (w w' : ℝ), IsUnit3 n ∧ 0 ≤ w ∧ w ≤ π ∧ |w' - w| ≤ hoTol single w ∧ CuNames A c (rotateAbout n w) ∧
      AxNames (cu2ax A single c) (rotateAbout n w') ∧ QuNames (cu2qu A single c) (rotateAbout n w') ∧
      BuNames (cu2bu A single c) (rotateAbout n w') ∧ OmNear 1e-6 (cu2om A single c) (rotateAbout n w') ∧
      (0.05 < w' → OmNames (cu2om A single c) (rotateAbout n w')) ∧
      (w' < π → RoNames (cu2ro A single c) (rotateAbout n w')) :=
  C118_homochoric single (cu2ho A c) ((C84_cube_is_ball A c).mp hc)

theorem om_axis_zero {R : M3} (h : R.transpose = R) : ¬ IsUnit3 (om2ax R).n := by
  have e : ∀ i j, R i j = R j i := fun i j => congrFun (congrFun h j) i
  unfold om2ax
  dsimp only
  rw [e 2 1, e 0 2, e 1 0, sub_self, sub_self, sub_self]
  unfold IsUnit3 V.sdiv V.smul
  simp

/-- C118 fails for matrices: the axis that `om2ax` returns for the identity and for every half turn is no unit vector (0/0), and
the quaternion of a half turn is wrong. -/
theorem C118_matrix_fails : (∃ f, OmNames 1 f ∧ ¬ AxNames (om2ax 1) f) ∧
    ∀ n : V, IsUnit3 n → ∃ R, OmNames R (rotateAbout n π) ∧ ¬ AxNames (om2ax R) (rotateAbout n π) := by
  constructor
  · refine ⟨id, ⟨⟨by simp, by simp⟩, fun v => by simp⟩, fun h => om_axis_zero (by simp) h.1⟩
  · intro n hn
    refine ⟨qu2om (ax2qu ⟨n, π⟩), qu_om (ax_qu (a := ⟨n, π⟩) ⟨hn, fun v => rfl⟩), fun h => om_axis_zero ?_ h.1⟩
    ext i j
    fin_cases i <;> fin_cases j <;> simp [qu2om, ax2qu, Matrix.transpose] <;> ring

/-- C118 fails for Euler angles: the Rodrigues vector of the identity has no unit axis. -/
theorem C118_bunge_fails : BuNames ⟨0, 0, 0⟩ id ∧ ∀ f, ¬ RoNames (bu2ro ⟨0, 0, 0⟩) f := by
  refine ⟨fun v => by simp [rot_zero], fun f h => ?_⟩
  have := h.1
  unfold bu2ro qu2ro bu2qu IsUnit3 at this
  simp at this

/-- C118 fails for negative Rodrigues magnitudes: `ro2om` takes the small-angle series for every negative angle. -/
theorem C118_rodrigues_fails : ∃ r f, RoNames r f ∧ ¬ OmNear 1e-6 (ro2om r) f := by
  have hu : IsUnit3 (⟨0, 0, 1⟩ : V) := by unfold IsUnit3; norm_num
  have hp := pi_pos
  have htan : tan (-(π / 2) / 2) = -1 := by
    rw [show -(π / 2) / 2 = -(π / 4) by ring, tan_neg, tan_pi_div_four]
  refine ⟨⟨⟨0, 0, 1⟩, .fin (-1)⟩, rotateAbout ⟨0, 0, 1⟩ (-(π / 2)), ⟨hu, -(π / 2), Or.inr ⟨by rw [htan], ?_⟩, fun v => rfl⟩, ?_⟩
  · rw [abs_neg, abs_of_pos (by linarith)]; linarith
  · rintro ⟨S, ⟨-, hS⟩, hc⟩
    have h1 := congrFun (hS ⟨1, 0, 0⟩) 0
    have h2 := hc 0 0
    have hS0 : S 0 0 = 0 := by
      simp [Matrix.mulVec, dotProduct, Fin.sum_univ_three, col, rotateAbout] at h1
      exact h1
    have hax : ro2ax ⟨⟨0, 0, 1⟩, .fin (-1)⟩ = ⟨⟨0, 0, 1⟩, -(π / 2)⟩ := by
      unfold ro2ax
      dsimp only
      rw [if_neg (by norm_num), V.norm_eq_one hu, V.sdiv_one, show (-1 : ℝ) = -1 from rfl, arctan_neg, arctan_one]
      ext <;> dsimp only; ring
    have hR : ro2om ⟨⟨0, 0, 1⟩, .fin (-1)⟩ 0 0 = 1 - (1 / 2 - (π / 2) ^ 2 / 24) * (π / 2) ^ 2 := by
      unfold ro2om
      rw [hax]
      unfold ax2om
      dsimp only
      rw [if_neg (by linarith)]
      simp [skewM, V.smul]
      ring
    rw [hR, hS0, sub_zero] at h2
    have h3 := (abs_le.mp h2).2
    have hlo := pi_gt_three
    have hhi := pi_lt_d2
    have hx : (π / 2) ^ 2 ≤ 2.5 := by nlinarith
    generalize (π / 2) ^ 2 = x at *
    nlinarith

-- the hypotheses are met by a third of a turn about the z axis, and the conclusions are about a rotation that moves x
example (A : Argsort) : ∃ f : V → V, f ⟨1, 0, 0⟩ = ⟨-1 / 2, sqrt 3 / 2, 0⟩ ∧ QuNames (ax2qu ⟨⟨0, 0, 1⟩, 2 * π / 3⟩) f ∧
    OmNames (ax2om ⟨⟨0, 0, 1⟩, 2 * π / 3⟩) f ∧ ∃ g, Near 1e-8 f g ∧ CuNames A (ax2cu A ⟨⟨0, 0, 1⟩, 2 * π / 3⟩) g := by
  have hp := pi_gt_three
  have h := C118_axis A A ⟨⟨0, 0, 1⟩, 2 * π / 3⟩ (rotateAbout ⟨0, 0, 1⟩ (2 * π / 3))
    ⟨by unfold IsUnit3; norm_num, fun v => rfl⟩ (by positivity) (by dsimp only; linarith)
  refine ⟨_, ?_, h.1, h.2.2.2.2.1 (by dsimp only; linarith), h.2.2.2.2.2.2⟩
  have hc : cos (2 * π / 3) = -1 / 2 := by
    rw [show 2 * π / 3 = π - π / 3 by ring, cos_pi_sub, cos_pi_div_three]; norm_num
  have hs : sin (2 * π / 3) = sqrt 3 / 2 := by
    rw [show 2 * π / 3 = π - π / 3 by ring, sin_pi_sub, sin_pi_div_three]
  unfold rotateAbout
  rw [hc, hs]
  ext <;> simp

example : RoNames ⟨⟨0, 3 / 5, 4 / 5⟩, .inf⟩ (rotateAbout ⟨0, 3 / 5, 4 / 5⟩ π) :=
  ⟨by unfold IsUnit3; norm_num, π, Or.inl ⟨rfl, rfl⟩, fun v => rfl⟩

example : BuNames ⟨1, 2, 3⟩ (fun v => rotateAbout ⟨0, 0, 1⟩ (-3) (rotateAbout ⟨1, 0, 0⟩ (-2) (rotateAbout ⟨0, 0, 1⟩ (-1) v))) :=
  fun _ => rfl

example : OmNames !![0, 0, 1; 1, 0, 0; 0, 1, 0] (fun v => ⟨v.z, v.x, v.y⟩) ∧
    (!![0, 0, 1; 1, 0, 0; 0, 1, 0] : M3) 0 0 + (!![0, 0, 1; 1, 0, 0; 0, 1, 0] : M3) 1 1 + (!![0, 0, 1; 1, 0, 0; 0, 1, 0] : M3) 2 2 ≠ -1 ∧
    (!![0, 0, 1; 1, 0, 0; 0, 1, 0] : M3) ≠ 1 := by
  refine ⟨⟨⟨?_, ?_⟩, fun v => ?_⟩, by simp, fun h => ?_⟩
  · ext i j
    fin_cases i <;> fin_cases j <;> simp [Matrix.mul_apply, Fin.sum_univ_three]
  · simp [Matrix.det_fin_three]
  · ext i
    fin_cases i <;> simp [Matrix.mulVec, dotProduct, Fin.sum_univ_three, col]
  · have := congrFun (congrFun h 0) 0
    simp at this

example : (⟨1, 0, 0⟩ : V).norm ≤ (3 * π / 4) ^ ((1 : ℝ) / 3) := by
  have h1 : (⟨1, 0, 0⟩ : V).norm = 1 := V.norm_eq_one (by unfold IsUnit3; norm_num)
  rw [h1]
  exact one_le_rpow (by linarith [pi_gt_three]) (by norm_num)

/-! ### C119: Clifford torus coordinates -/

/-- C119: the six coordinates are all defined exactly when no two components of the quaternion vanish. -/
theorem C119_defined (q : Q) : none ∉ qu2cl q ↔
    ¬ (q.w = 0 ∧ q.x = 0) ∧ ¬ (q.w = 0 ∧ q.y = 0) ∧ ¬ (q.w = 0 ∧ q.z = 0) ∧ ¬ (q.x = 0 ∧ q.y = 0) ∧ ¬ (q.x = 0 ∧ q.z = 0) ∧
      ¬ (q.y = 0 ∧ q.z = 0) := by
  have h : ∀ a b : ℝ, none = atanQuot a b ↔ (b = 0 ∧ a = 0) := by
    intro a b
    unfold atanQuot
    by_cases hb : b = 0
    · rw [if_pos hb]
      by_cases ha : a = 0
      · rw [if_pos ha]; simp [ha, hb]
      · rw [if_neg ha]; simp [ha]
    · rw [if_neg hb]; simp [hb]
  unfold qu2cl
  simp only [List.mem_cons, h, List.not_mem_nil, or_false, not_or]
  constructor
  · rintro ⟨h1, h2, h3, h4, h5, h6⟩
    exact ⟨h1, h3, h5, h6, fun k => h4 ⟨k.2, k.1⟩, h2⟩
  · rintro ⟨h1, h2, h3, h4, h5, h6⟩
    exact ⟨h1, h6, h2, fun k => h5 ⟨k.2, k.1⟩, h3, h4⟩

theorem atanQuot_pos {a b : ℝ} (hb : b ≠ 0) : atanQuot a b = some (arctan (a / b)) := by
  unfold atanQuot; rw [if_neg hb]

/-- C119, partial: for quaternions without a zero component the coordinates are angles in `(-π/2, π/2)`, they do not depend on the
sign of the quaternion, and they determine the rotation.  Missing: quaternions with two or more zero components, among them the
identity, see `C119_fails`. -/
theorem C119_faithful_partial (q : Q) (hw : q.w ≠ 0) (hx : q.x ≠ 0) (hy : q.y ≠ 0) (hz : q.z ≠ 0) :
    qu2cl q = [some (arctan (q.x / q.w)), some (arctan (q.z / q.y)), some (arctan (q.y / q.w)), some (arctan (q.x / q.z)),
        some (arctan (q.z / q.w)), some (arctan (q.y / q.x))] ∧
      (∀ o ∈ qu2cl q, ∃ t, o = some t ∧ -(π / 2) < t ∧ t < π / 2) ∧
      qu2cl ⟨-q.w, -q.x, -q.y, -q.z⟩ = qu2cl q ∧
      ∀ p : Q, p.w ≠ 0 → IsUnit4 p → IsUnit4 q → qu2cl p = qu2cl q → SameUpToSign (toH p) (toH q) := by
  have h1 : qu2cl q = [some (arctan (q.x / q.w)), some (arctan (q.z / q.y)), some (arctan (q.y / q.w)), some (arctan (q.x / q.z)),
        some (arctan (q.z / q.w)), some (arctan (q.y / q.x))] := by
    unfold qu2cl
    rw [atanQuot_pos hw, atanQuot_pos hw, atanQuot_pos hw, atanQuot_pos hx, atanQuot_pos hy, atanQuot_pos hz]
  refine ⟨h1, ?_, ?_, ?_⟩
  · intro o ho
    rw [h1] at ho
    simp only [List.mem_cons, List.not_mem_nil, or_false] at ho
    rcases ho with rfl | rfl | rfl | rfl | rfl | rfl <;>
      exact ⟨_, rfl, neg_pi_div_two_lt_arctan _, arctan_lt_pi_div_two _⟩
  · unfold qu2cl
    dsimp only
    rw [atanQuot_pos (neg_ne_zero.mpr hw), atanQuot_pos (neg_ne_zero.mpr hw), atanQuot_pos (neg_ne_zero.mpr hw),
      atanQuot_pos (neg_ne_zero.mpr hx), atanQuot_pos (neg_ne_zero.mpr hy), atanQuot_pos (neg_ne_zero.mpr hz),
      atanQuot_pos hw, atanQuot_pos hw, atanQuot_pos hw, atanQuot_pos hx, atanQuot_pos hy, atanQuot_pos hz]
    simp only [neg_div_neg_eq]
  · intro p hp0 hp hq h
    rw [h1] at h
    unfold qu2cl at h
    rw [atanQuot_pos hp0, atanQuot_pos hp0, atanQuot_pos hp0] at h
    simp only [List.cons.injEq, Option.some.injEq] at h
    obtain ⟨e1, -, e2, -, e3, -⟩ := h
    have e1 := arctan_injective e1
    have e2 := arctan_injective e2
    have e3 := arctan_injective e3
    rw [div_eq_div_iff hp0 hw] at e1 e2 e3
    unfold IsUnit4 at hp hq
    have hsq : p.w ^ 2 = q.w ^ 2 := by
      linear_combination p.w ^ 2 * (-hq) + q.w ^ 2 * hp - (p.x * q.w + q.x * p.w) * e1 - (p.y * q.w + q.y * p.w) * e2 -
        (p.z * q.w + q.z * p.w) * e3
    rcases sq_eq_sq_iff_eq_or_eq_neg.mp hsq with hs | hs
    · left
      rw [hs] at e1 e2 e3
      have a1 := mul_right_cancel₀ hw e1
      have a2 := mul_right_cancel₀ hw e2
      have a3 := mul_right_cancel₀ hw e3
      unfold toH; rw [a1, a2, a3, hs]
    · right
      rw [hs] at e1 e2 e3
      have a1 : p.x = -q.x := mul_right_cancel₀ hw (by linarith)
      have a2 : p.y = -q.y := mul_right_cancel₀ hw (by linarith)
      have a3 : p.z = -q.z := mul_right_cancel₀ hw (by linarith)
      rw [← toH_neg]
      unfold toH Q.neg; rw [a1, a2, a3, hs]

/-- C119 fails at the identity: three of its six coordinates are 0/0. -/
theorem C119_fails : IsUnit4 ⟨1, 0, 0, 0⟩ ∧ qu2cl ⟨1, 0, 0, 0⟩ = [some 0, none, some 0, none, some 0, none] := by
  refine ⟨by unfold IsUnit4; norm_num, ?_⟩
  unfold qu2cl atanQuot
  simp

example : IsUnit4 ⟨1 / 2, -1 / 2, 1 / 2, 1 / 2⟩ ∧ none ∉ qu2cl ⟨1 / 2, -1 / 2, 1 / 2, 1 / 2⟩ := by
  refine ⟨by unfold IsUnit4; norm_num, ?_⟩
  rw [C119_defined]; norm_num

end Verif.Conv
