import Verif.Props.HoAccuracy
import Verif.Props.Sampling
import Verif.Props.Fz
import Verif.Model.SampleAngle
/-!
C108: sampling the fundamental zone at a given angular resolution.
-/
open Quaternion
namespace Verif.SampleAngle
open Verif Verif.Cubo Verif.Samp Verif.Spec Real

theorem laueMult_some (n : ℕ) (h1 : 1 ≤ n) (h2 : n ≤ 11) : getLaueMult n = some (laueOrder n) := by
  unfold getLaueMult
  rw [pyIndex_nat _ _ h1]
  interval_cases n <;> rfl

/-- C108, what holds: for every class and every resolution above 0.03732 degrees the result is, up to the drawn permutation, the
list of those points of a cubochoric grid that lie in the fundamental zone: unit quaternions, all of them in the zone,
none lost. -/
theorem C108_members_partial (A : Argsort) (single : Bool) (n : ℕ) (h1 : 1 ≤ n) (h2 : n ≤ 11) (deg : ℝ) (hd : 0.03732 < deg)
    (perm : (l : List Q) → Option (Equiv.Perm (Fin l.length))) :
    ∃ out, sampleAngle A single n deg perm = some out ∧ ∃ edge : ℕ,
      (edge : ℝ) ≤ ((2 * 131.97049 / (deg - 0.03732) + 1) ^ 3 / (0.5 * laueOrder n)) ^ ((1 : ℝ) / 3) + 1 ∧
      ((2 * 131.97049 / (deg - 0.03732) + 1) ^ 3 / (0.5 * laueOrder n)) ^ ((1 : ℝ) / 3) < edge ∧
      (∀ q ∈ out, q ∈ so3CubochoricGrid A single edge ∧ IsUnit4 q ∧ 0 ≤ q.w ∧ InZone n (toH q)) ∧
      (∀ q : Q, InZone n (toH q) → out.countP (fun r => open Classical in decide (r = q)) =
        (so3CubochoricGrid A single edge).countP (fun r => open Classical in decide (r = q))) := by
  classical
  have hx : 0 ≤ nSo3 deg := by
    unfold nSo3
    have : 0 < deg - 0.03732 := by linarith
    positivity
  have hm0 : (0 : ℝ) < 0.5 * laueOrder n := by
    have : 0 < laueOrder n := by interval_cases n <;> decide
    positivity
  set y := (nSo3 deg / (0.5 * laueOrder n)) ^ ((1 : ℝ) / 3) with hy
  have hy0 : 0 ≤ y := by positivity
  have he : edgeLength (laueOrder n) deg = some ⌊y + 1⌋ := by
    unfold edgeLength MI.trunc
    rw [if_neg (by push Not; exact ⟨by linarith, hx⟩), if_pos (by positivity)]
  have hfl : ((⌊y + 1⌋.toNat : ℕ) : ℤ) = ⌊y + 1⌋ := Int.toNat_of_nonneg (Int.floor_nonneg.mpr (by linarith))
  have hflr : ((⌊y + 1⌋.toNat : ℕ) : ℝ) = ((⌊y + 1⌋ : ℤ) : ℝ) := by exact_mod_cast congrArg (Int.cast (R := ℝ)) hfl
  set l := fzFilter (so3CubochoricGrid A single ⌊y + 1⌋.toNat) n with hl
  refine ⟨(perm l).elim l fun σ => permuted l σ, ?_, ⌊y + 1⌋.toNat, ?_, ?_, ?_, ?_⟩
  · unfold sampleAngle
    rw [laueMult_some n h1 h2, Option.bind_some, he, Option.bind_some, if_pos (by omega)]
  · rw [hflr]; exact Int.floor_le _
  · rw [hflr]
    have := Int.lt_floor_add_one (y + 1)
    change y < _
    linarith
  all_goals
    have hperm : ((perm l).elim l fun σ => permuted l σ).Perm l := by
      cases perm l with
      | none => exact List.Perm.refl _
      | some σ => exact permuted_perm _ σ
    have hg := (C62_cubochoric_grid A single ⌊y + 1⌋.toNat []).2.1
  · intro q hq
    have := hperm.mem_iff.mp hq
    rw [hl] at this
    unfold fzFilter at this
    rw [List.mem_filter, beq_iff_eq] at this
    obtain ⟨u, w⟩ := hg q this.1
    refine ⟨this.1, u, w, ?_⟩
    obtain ⟨b, hb, hbi⟩ := C09_closed_form q w n h1 h2
    rw [hb] at this
    exact hbi.mp (Option.some.inj this.2)
  · intro q hz
    rw [hperm.countP_eq, hl]
    unfold fzFilter
    rw [List.countP_filter]
    apply List.countP_congr
    intro r hr
    simp only [Bool.and_eq_true, decide_eq_true_eq, beq_iff_eq]
    constructor
    · exact fun h => h.1
    · intro h
      subst h
      obtain ⟨b, hb, hbi⟩ := C09_closed_form r (hg r hr).2 n h1 h2
      exact ⟨rfl, by rw [hb, hbi.mpr hz]⟩

example : (0.03732 : ℝ) < 2 := by norm_num

/-! ### the rotation angle of a cubochoric point -/

theorem exists_angle {t : ℝ} (h0 : 0 ≤ t) (h1 : t ≤ π) : ∃ w, 0 ≤ w ∧ w ≤ π ∧ w - sin w = t := by
  have hc : ContinuousOn (fun w => w - sin w) (Set.Icc 0 π) := (continuous_id.sub continuous_sin).continuousOn
  have := intermediate_value_Icc pi_pos.le hc
  have ht : t ∈ Set.Icc ((0 : ℝ) - sin 0) (π - sin π) := by simp [h0, h1]
  obtain ⟨w, ⟨a, b⟩, c⟩ := this ht
  exact ⟨w, a, b, c⟩

theorem V_norm_sq (v : V) : v.norm = Real.sqrt (v.x ^ 2 + v.y ^ 2 + v.z ^ 2) := rfl

/-- **C108**: the rotation angle of the cubochoric point `c` of the cube is, up to the accuracy of the fit, the angle `w` with
`w - sin w = 8 m³ / π`, where `m` is the largest magnitude of a coordinate (points closer to the identity than 0.0021 rad are
mapped to the identity). -/
theorem C108_angle (A : Argsort) (single : Bool) (c : V) (hm : 0 < max (max |c.x| |c.y|) |c.z|)
    (hc : max (max |c.x| |c.y|) |c.z| ≤ 1 / 2 * π ^ ((2 : ℝ) / 3)) :
    ∃ w, 0 ≤ w ∧ w ≤ π ∧ w - sin w = 8 * max (max |c.x| |c.y|) |c.z| ^ 3 / π ∧
      ((w < 0.0021 ∧ cu2qu A single c = ⟨1, 0, 0, 0⟩) ∨
       (0.002 ≤ w ∧ |rotAngle (toH (cu2qu A single c)) - w| ≤ if single then 3e-7 else 1.2e-8)) := by
  set m := max (max |c.x| |c.y|) |c.z| with hmd
  have hpi := pi_pos
  have hr := C84_radius A c
  rw [← hmd] at hr
  set v := cu2ho A c with hv
  have hK3 : ((6 / π) ^ ((1 : ℝ) / 3)) ^ 3 = 6 / π := by
    rw [← rpow_natCast, ← rpow_mul (by positivity)]; norm_num
  have hm3 : m ^ 3 ≤ π ^ 2 / 8 := by
    have h3 : (1 / 2 * π ^ ((2 : ℝ) / 3)) ^ 3 = π ^ 2 / 8 := by
      rw [mul_pow, ← rpow_natCast (π ^ ((2 : ℝ) / 3)), ← rpow_mul hpi.le]
      norm_num
      ring
    rw [← h3]
    exact pow_le_pow_left₀ hm.le hc 3
  obtain ⟨w, w0, wπ, hw⟩ := exists_angle (t := 8 * m ^ 3 / π) (by positivity) (by
    rw [div_le_iff₀ hpi]; nlinarith)
  refine ⟨w, w0, wπ, hw, ?_⟩
  have hvn : 0 < v.norm := by rw [hr]; positivity
  have hsq : v.x ^ 2 + v.y ^ 2 + v.z ^ 2 = v.norm ^ 2 := by
    rw [V_norm_sq, sq_sqrt (by positivity)]
  set a : AX := ⟨⟨v.x / v.norm, v.y / v.norm, v.z / v.norm⟩, w⟩ with ha
  have hu : IsUnit3 a.n := by
    unfold IsUnit3
    rw [ha]
    dsimp only
    rw [div_pow, div_pow, div_pow, ← add_div, ← add_div, hsq, div_self (by positivity)]
  have hho : ax2ho a = v := by
    unfold ax2ho
    rw [ha]
    dsimp only
    have e : (0.75 * (w - sin w)) ^ ((1 : ℝ) / 3) = v.norm := by
      have : 0.75 * (w - sin w) = v.norm ^ 3 := by
        rw [hw, hr, mul_pow, hK3]; ring
      rw [this, ← rpow_natCast, ← rpow_mul hvn.le]; norm_num
    rw [e]
    unfold V.smul
    ext <;> dsimp only <;> field_simp
  have hone : ax2qu ⟨⟨0, 0, 1⟩, 0⟩ = ⟨1, 0, 0, 0⟩ := by
    unfold ax2qu; ext <;> simp
  have hq : cu2qu A single c = ax2qu (ho2ax single true v) := rfl
  rw [hq, ← hho]
  rcases Verif.HoAcc.C106_ho2ax_fast single a hu w0 wπ with ⟨k1, k2⟩ | ⟨k1, k2, k3⟩
  · left; rw [k2]; exact ⟨k1, hone⟩
  · right
    refine ⟨k1, ?_⟩
    set w' := (ho2ax single true (ax2ho a)).ang with hw'
    have hδ : (if single = true then (3e-7 : ℝ) else 1.2e-8) ≤ 3e-7 := by cases single <;> norm_num
    have k1' : 0.002 ≤ w := k1
    have k3' : |w' - w| ≤ if single then 3e-7 else 1.2e-8 := k3
    generalize (if single = true then (3e-7 : ℝ) else 1.2e-8) = δ at *
    have hpi3 := pi_gt_three
    have hre : (toH (ax2qu (ho2ax single true (ax2ho a)))).re = cos (w' / 2) := rfl
    unfold rotAngle
    rw [hre]
    rw [abs_le] at k3'
    by_cases hc : w' ≤ π
    · rw [abs_of_nonneg (cos_nonneg_of_mem_Icc ⟨by linarith, by linarith⟩), arccos_cos (by linarith) (by linarith), abs_le]
      constructor <;> linarith
    · push Not at hc
      rw [abs_of_nonpos (cos_nonpos_of_pi_div_two_le_of_le (by linarith) (by linarith)), ← cos_pi_sub,
        arccos_cos (by linarith) (by linarith), abs_le]
      constructor <;> linarith

example : 0 < max (max |(1 / 3 : ℝ)| |0|) |0| ∧ max (max |(1 / 3 : ℝ)| |0|) |0| ≤ 1 / 2 * π ^ ((2 : ℝ) / 3) := by
  have h : (1 : ℝ) ≤ π ^ ((2 : ℝ) / 3) := one_le_rpow (by linarith [pi_gt_three]) (by norm_num)
  rw [abs_of_pos (by norm_num : (0 : ℝ) < 1 / 3), abs_zero]
  norm_num
  linarith

/-- C108 fails for the resolution: the grid is made coarser by the order of the group although it covers all of SO(3).  In the
cubic class, asked for 40 degrees, every sample and every one of its symmetric equivalents is more than 44 degrees away from
the identity orientation. -/
theorem C108_resolution_fails (A : Argsort) (single : Bool) (perm : (l : List Q) → Option (Equiv.Perm (Fin l.length))) :
    ∃ out, sampleAngle A single 11 40 perm = some out ∧
      ∀ q ∈ out, ∀ g ∈ laueRotations 11, 44 / 180 * π < rotAngle (toH q * g) := by
  obtain ⟨out, ho, edge, e1, e2, hm, -⟩ := C108_members_partial A single 11 (by norm_num) (by norm_num) 40 (by norm_num) perm
  refine ⟨out, by exact_mod_cast ho, ?_⟩
  have hedge : edge = 3 := by
    have hx1 : (8 : ℝ) ≤ (2 * 131.97049 / (40 - 0.03732) + 1) ^ 3 / (0.5 * ((laueOrder 11 : ℕ) : ℝ)) := by
      norm_num [laueOrder]
    have hx2 : (2 * 131.97049 / (40 - 0.03732) + 1) ^ 3 / (0.5 * ((laueOrder 11 : ℕ) : ℝ)) < (27 : ℝ) := by
      norm_num [laueOrder]
    set x := (2 * 131.97049 / (40 - 0.03732) + 1) ^ 3 / (0.5 * ((laueOrder 11 : ℕ) : ℝ))
    have l2 : (2 : ℝ) ≤ x ^ ((1 : ℝ) / 3) := by
      have : (2 : ℝ) = 8 ^ ((1 : ℝ) / 3) := by
        rw [show (8 : ℝ) = 2 ^ (3 : ℝ) by norm_num, ← rpow_mul (by norm_num)]; norm_num
      rw [this]
      exact rpow_le_rpow (by norm_num) hx1 (by norm_num)
    have h27 : (27 : ℝ) ^ ((1 : ℝ) / 3) = 3 := by
      have e : (27 : ℝ) = (3 : ℝ) ^ (3 : ℕ) := by norm_num
      rw [e, ← rpow_natCast, ← rpow_mul (by norm_num)]
      norm_num
    have l3 : x ^ ((1 : ℝ) / 3) < 3 := by
      have := rpow_lt_rpow (z := (1 : ℝ) / 3) (by linarith) hx2 (by norm_num)
      rwa [h27] at this
    have a1 : (edge : ℝ) < 4 := by linarith
    have a2 : (2 : ℝ) < edge := by linarith
    have a1' : edge < 4 := by exact_mod_cast a1
    have a2' : 2 < edge := by exact_mod_cast a2
    omega
  subst hedge
  intro q hq g hg
  obtain ⟨hqg, hu, hw, hz⟩ := hm q hq
  have hpi := pi_pos
  have hP : 0 < π ^ ((2 : ℝ) / 3) := rpow_pos_of_pos hpi _
  have key : 44 / 180 * π < rotAngle (toH q) := by
    obtain ⟨c, hcm, rfl⟩ := List.mem_map.mp hqg
    have hrot : rotAngle (toH (quStd (cu2qu A single c))) = rotAngle (toH (cu2qu A single c)) := by
      unfold rotAngle
      congr 2
      unfold quStd
      split_ifs <;> simp [toH, Q.neg]
    rw [hrot]
    obtain ⟨i, j, k, hi, hj, hk, hc⟩ := ((C62_cubochoric_points 3).2.2.1 c).mp hcm
    have ax : ∀ i : ℕ, i < 3 → 1 / 6 * π ^ ((2 : ℝ) / 3) ≤ |(-(1 / 2) + (i : ℝ) / (3 : ℕ)) * π ^ ((2 : ℝ) / 3)| ∧
        |(-(1 / 2) + (i : ℝ) / (3 : ℕ)) * π ^ ((2 : ℝ) / 3)| ≤ 1 / 2 * π ^ ((2 : ℝ) / 3) := by
      intro i hi
      rw [abs_mul, abs_of_pos hP]
      interval_cases i <;> norm_num [abs_of_neg, abs_of_pos] <;> linarith
    have b1 : 1 / 6 * π ^ ((2 : ℝ) / 3) ≤ max (max |c.x| |c.y|) |c.z| := by
      rw [hc]; exact le_trans (ax k hk).1 (le_max_right _ _)
    have b2 : max (max |c.x| |c.y|) |c.z| ≤ 1 / 2 * π ^ ((2 : ℝ) / 3) := by
      rw [hc]; exact max_le (max_le (ax i hi).2 (ax j hj).2) (ax k hk).2
    obtain ⟨w, w0, wπ, hw, h⟩ := C108_angle A single c (lt_of_lt_of_le (by positivity) b1) b2
    set m := max (max |c.x| |c.y|) |c.z|
    have hm3 : π ^ 2 / 216 ≤ m ^ 3 := by
      have h3 : (1 / 6 * π ^ ((2 : ℝ) / 3)) ^ 3 = π ^ 2 / 216 := by
        rw [mul_pow, ← rpow_natCast (π ^ ((2 : ℝ) / 3)), ← rpow_mul hpi.le]
        norm_num
        ring
      rw [← h3]
      exact pow_le_pow_left₀ (by positivity) b1 3
    have hpl := pi_gt_d2
    have hph := pi_lt_d2
    have hws : π / 27 ≤ w - sin w := by
      rw [hw, le_div_iff₀ hpi]; nlinarith
    have hwl : 44.5 / 180 * π < w := by
      by_contra hcon
      push Not at hcon
      rcases eq_or_lt_of_le w0 with h0 | h0
      · rw [← h0] at hws; simp at hws; linarith
      · have h6 := Real.sin_gt_sub_cube h0
        have hw1 : w ≤ 0.78 := by linarith
        have : w ^ 3 ≤ 0.78 ^ 3 := pow_le_pow_left₀ w0 hw1 3
        norm_num at this
        linarith
    rcases h with ⟨h1, -⟩ | ⟨-, h2⟩
    · linarith
    · have hδ : (if single = true then (3e-7 : ℝ) else 1.2e-8) ≤ 3e-7 := by cases single <;> norm_num
      rw [abs_le] at h2
      linarith
  refine lt_of_lt_of_le key ?_
  unfold rotAngle
  have := hz g hg
  have := Real.arccos_le_arccos this
  linarith

end Verif.SampleAngle
