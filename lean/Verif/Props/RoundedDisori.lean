import Verif.Props.RoundedAngle
/-! C140: `ori_angle_laue` and `disori_angle_laue` in floating-point arithmetic. -/
open Quaternion
namespace Verif
open Spec

theorem toH_rConj {p : ℕ} {fl : ℝ → ℝ} (hfl : Nearest p fl) {q : Q} (hq : RepQ p q) : toH (rConj fl q) = star (toH q) := by
  obtain ⟨h1, h2, h3, h4⟩ := hq
  unfold rConj
  have n : ∀ x : ℝ, x * -1 = -x := fun x => by ring
  rw [mul_one, n, n, n, hfl.of_rep h1, hfl.of_rep h2.neg, hfl.of_rep h3.neg, hfl.of_rep h4.neg]
  ext
  · rw [Quaternion.re_star]; rfl
  · rw [Quaternion.imI_star]; rfl
  · rw [Quaternion.imJ_star]; rfl
  · rw [Quaternion.imK_star]; rfl

theorem repQ_prod {p : ℕ} {fl : ℝ → ℝ} (hfl : Nearest p fl) (a b : Q) : RepQ p (rProd fl a b) := by
  unfold rProd quStd
  split_ifs
  · exact ⟨hfl.rep _, hfl.rep _, hfl.rep _, hfl.rep _⟩
  · exact ⟨(hfl.rep _).neg, (hfl.rep _).neg, (hfl.rep _).neg, (hfl.rep _).neg⟩

theorem small_of {u : ℝ} {q : Q} (hs : u ≤ 1 / 256) (h : |‖toH q‖ - 1| ≤ 5 * u) : ‖toH q‖ ≤ 1.02 := by
  have := (abs_le.mp h).2
  norm_num at *; linarith

/-- the rounded relative orientation -/
theorem rel_err {p : ℕ} (hp : 8 ≤ p) {fl : ℝ → ℝ} (hfl : Nearest p fl) {q1 q2 : Q} (hr : RepQ p q2)
    (h1 : |‖toH q1‖ - 1| ≤ 5 * (2 ^ p)⁻¹) (h2 : |‖toH q2‖ - 1| ≤ 5 * (2 ^ p)⁻¹) :
    ∃ s : ℝ, (s = 1 ∨ s = -1) ∧ ‖toH (rProd fl q1 (rConj fl q2)) - s • (toH q1 * star (toH q2))‖ ≤ 8.4 * (2 ^ p)⁻¹ := by
  have hE : Err (2 ^ p)⁻¹ fl := hfl.err (by omega)
  have hu : (0 : ℝ) ≤ (2 ^ p)⁻¹ := by positivity
  have hs := small_u hp
  generalize ((2 : ℝ) ^ p)⁻¹ = u at *
  obtain ⟨s, hs1, e⟩ := std_sign (rProdRaw fl q1 (rConj fl q2))
  refine ⟨s, hs1, ?_⟩
  unfold rProd
  rw [e, ← smul_sub, norm_smul, sign_norm hs1, one_mul]
  have h := prod_err hu hE q1 (rConj fl q2)
  rw [toH_rConj hfl hr, Quaternion.norm_star] at h
  refine h.trans ?_
  have hg := gamma_le hu hs
  have hg0 : 0 ≤ (1 + u) ^ 4 - 1 := by
    have : 1 ≤ (1 + u) ^ 4 := one_le_pow₀ (by linarith)
    linarith
  have a1 := small_of hs h1
  have a2 := small_of hs h2
  have a3 : ‖toH q1‖ * ‖toH q2‖ ≤ 1.02 * 1.02 := mul_le_mul a1 a2 (norm_nonneg _) (by norm_num)
  have a4 : 2 * ((1 + u) ^ 4 - 1) * (‖toH q1‖ * ‖toH q2‖) ≤ 2 * (4.03 * u) * (1.02 * 1.02) :=
    mul_le_mul (by linarith) a3 (by positivity) (by positivity)
  norm_num at a4 ⊢
  linarith

/-- the exact relative orientation is nearly a unit quaternion -/
theorem rel_norm {u : ℝ} (hu : 0 ≤ u) (hs : u ≤ 1 / 256) {q1 q2 : Q} (h1 : |‖toH q1‖ - 1| ≤ 5 * u) (h2 : |‖toH q2‖ - 1| ≤ 5 * u) :
    |‖toH q1 * star (toH q2)‖ - 1| ≤ 10.1 * u := by
  rw [norm_mul, Quaternion.norm_star]
  have e : ‖toH q1‖ * ‖toH q2‖ - 1 = (‖toH q1‖ - 1) * ‖toH q2‖ + (‖toH q2‖ - 1) := by ring
  have h3 := small_of hs h2
  rw [e]
  have a := abs_add_le ((‖toH q1‖ - 1) * ‖toH q2‖) (‖toH q2‖ - 1)
  rw [abs_mul, abs_of_nonneg (norm_nonneg _)] at a
  have b : |‖toH q1‖ - 1| * ‖toH q2‖ ≤ 5 * u * 1.02 := mul_le_mul h1 h3 (norm_nonneg _) (by positivity)
  norm_num at *
  linarith

theorem sign_abs {s : ℝ} (hs : s = 1 ∨ s = -1) (h : ℍ[ℝ]) : |(s • h).re| = |h.re| := by
  rcases hs with rfl | rfl
  · rw [one_smul]
  · rw [neg_smul, one_smul, H_re_neg, abs_neg]

theorem sign_norm' {s : ℝ} (hs : s = 1 ∨ s = -1) (h : ℍ[ℝ]) : ‖s • h‖ = ‖h‖ := by
  rw [norm_smul, sign_norm hs, one_mul]

/-- `| |a.re| - |b.re| | ≤ ‖a - b‖` -/
theorem abs_re_sub (a b : ℍ[ℝ]) : abs (|a.re| - |b.re|) ≤ ‖a - b‖ := by
  have h := (comp_le_norm (a - b)).2.2.2
  rw [Quaternion.re_sub] at h
  exact (abs_abs_sub_abs_le _ _).trans h

theorem rot_norm {n : ℕ} (h1 : 1 ≤ n) (h2 : n ≤ 11) {g : ℍ[ℝ]} (hg : g ∈ laueRotations n) : ‖g‖ = 1 := by
  obtain ⟨l, _, _, he⟩ := laueElements_some n h1 h2
  have hunit := (rotGroup_laue h1 h2 he).unit
  rw [gen_laue h1 h2 he] at hg
  obtain ⟨g', hg', hs⟩ := hg
  rcases hs with rfl | rfl
  · exact unitH_norm (hunit g' hg')
  · rw [norm_neg]; exact unitH_norm (hunit g' hg')

/-- C140: `ori_angle_laue` in floating-point arithmetic.  For two orientations of unit length up to rounding (`5 * 2^-p`, what `qu_norm`
and the conversions deliver) the result is a number, never NaN: it is `2 arccos c` rounded, where `0 ≤ c ≤ 1` differs by at most
`64 * 2^-p` from the largest `|re(q1 q2* g)|` over the Laue group (the cosine of half the angle to the nearest equivalent). -/
theorem C140_ori_angle {p : ℕ} (hp : 8 ≤ p) (hp' : p ≤ 53) {fl tab : ℝ → ℝ} (hfl : Nearest p fl) (ht : TableOk tab) (q1 q2 : Q)
    (hr : RepQ p q2) (h1 : |‖toH q1‖ - 1| ≤ 5 * (2 ^ p)⁻¹) (h2 : |‖toH q2‖ - 1| ≤ 5 * (2 ^ p)⁻¹) (n : ℕ) (hn1 : 1 ≤ n) (hn2 : n ≤ 11) :
    ∃ c, rOriAngle fl tab q1 q2 n = some (some (fl (2 * Real.arccos c))) ∧ 0 ≤ c ∧ c ≤ 1 ∧
      (∃ g ∈ laueRotations n, c ≤ |(toH q1 * star (toH q2) * g).re| + 64 * (2 ^ p)⁻¹) ∧
      (∀ g ∈ laueRotations n, |(toH q1 * star (toH q2) * g).re| ≤ c + 64 * (2 ^ p)⁻¹) := by
  have hE : Err (2 ^ p)⁻¹ fl := hfl.err (by omega)
  have hu : (0 : ℝ) ≤ (2 ^ p)⁻¹ := by positivity
  have hs := small_u hp
  obtain ⟨s, hs1, hP⟩ := rel_err hp hfl hr h1 h2
  obtain ⟨r, hro, hrep, hr0, ⟨g, hg, hrg⟩, hmax⟩ := C141_reduce hp hp' hfl ht (rProd fl q1 (rConj fl q2)) n hn1 hn2
  have hEn := rel_norm hu hs h1 h2
  have hnorm : toH r ≠ 0 → _ := C138_normalise hp hfl r
  have hw := normStd_w (by omega) hfl r hrep.1
  have hrr : rOriAngle fl tab q1 q2 n = some (open Classical in if rNormVal fl r = 0 then none else rAngle fl (rNormStd fl r)) := by
    unfold rOriAngle; rw [hro]; rfl
  generalize rProd fl q1 (rConj fl q2) = P at *
  generalize toH q1 * star (toH q2) = E at *
  generalize ((2 : ℝ) ^ p)⁻¹ = u at *
  have b1 := abs_le.mp hEn
  have c1 := (norm_sub_norm_le (toH P) (s • E)).trans hP
  have c2 := norm_sub_norm_le (s • E) (toH P)
  rw [norm_sub_rev] at c2
  replace c2 := c2.trans hP
  rw [sign_norm' hs1] at c1 c2
  have hPn : ‖toH P‖ ≤ 1.08 := by norm_num at *; linarith
  have hPm : 14 * u * ‖toH P‖ ≤ 14 * u * 1.08 := mul_le_mul_of_nonneg_left hPn (by positivity)
  have hPk : 10 * u * ‖toH P‖ ≤ 10 * u * 1.08 := mul_le_mul_of_nonneg_left hPn (by positivity)
  have hgn := rot_norm hn1 hn2 hg
  have d1 := (norm_sub_norm_le (toH r) (toH P * g)).trans hrg
  have d2 := norm_sub_norm_le (toH P * g) (toH r)
  rw [norm_sub_rev] at d2
  replace d2 := d2.trans hrg
  rw [norm_mul, hgn, mul_one] at d1 d2
  have hR1 : |‖toH r‖ - 1| ≤ 33.7 * u := by rw [abs_le]; constructor <;> norm_num at * <;> linarith
  have hR2 := abs_le.mp hR1
  have hRhalf : 1 / 2 ≤ ‖toH r‖ := by norm_num at *; linarith
  have hRpos : 0 < ‖toH r‖ := by linarith
  have hn := hnorm (norm_pos_iff.mp hRpos)
  have hv := norm_err hu hs hE r hRpos
  have hv0 : rNormVal fl r ≠ 0 := by
    intro h0
    rw [h0, zero_sub, abs_neg, abs_of_pos hRpos] at hv
    have : 3.1 * u * ‖toH r‖ ≤ 3.1 * (1 / 256) * ‖toH r‖ := by
      apply mul_le_mul_of_nonneg_right _ hRpos.le
      norm_num at *; linarith
    norm_num at *; linarith
  rw [if_neg hv0] at hrr
  have hval : rAngle fl (rNormStd fl r) = some (fl (2 * Real.arccos (rNormStd fl r).w)) := by
    unfold rAngle acosNan
    rw [if_pos ⟨by linarith [hw.1], hw.2⟩]; rfl
  rw [hval] at hrr
  -- accuracy
  have e1 : (rNormStd fl r).w = |(toH (rNorm fl r)).re| := by unfold rNormStd; rw [std_w]; rfl
  have e2 : |(‖toH r‖⁻¹ • toH r).re| = ‖toH r‖⁻¹ * r.w := by
    rw [Quaternion.re_smul, smul_eq_mul, abs_mul, abs_of_pos (inv_pos.mpr hRpos)]
    congr 1
    exact abs_of_nonneg hr0
  have f1 := (abs_re_sub (toH (rNorm fl r)) (‖toH r‖⁻¹ • toH r)).trans hn
  rw [← e1, e2] at f1
  have hrw : r.w ≤ ‖toH r‖ := (le_abs_self _).trans ((comp_le_norm (toH r)).2.2.2)
  have f2 : |‖toH r‖⁻¹ * r.w - r.w| ≤ 33.7 * u := by
    have : ‖toH r‖⁻¹ * r.w - r.w = (‖toH r‖⁻¹ * r.w) * (1 - ‖toH r‖) := by field_simp
    rw [this, abs_mul, abs_sub_comm 1]
    have h3 : |‖toH r‖⁻¹ * r.w| ≤ 1 := by
      rw [abs_of_nonneg (by positivity), inv_mul_le_iff₀ hRpos]; linarith
    calc _ ≤ 1 * (33.7 * u) := mul_le_mul h3 hR1 (abs_nonneg _) (by norm_num)
      _ = _ := one_mul _
  have f1' := abs_le.mp f1
  have f2' := abs_le.mp f2
  have key : ∀ h ∈ laueRotations n, abs (|(toH P * h).re| - |(E * h).re|) ≤ 8.4 * u := by
    intro h hh
    have k1 := abs_re_sub (toH P * h) (s • E * h)
    rw [← sub_mul, norm_mul, rot_norm hn1 hn2 hh, mul_one, smul_mul_assoc, sign_abs hs1] at k1
    exact k1.trans hP
  refine ⟨_, hrr, hw.1, hw.2, ⟨g, hg, ?_⟩, ?_⟩
  · have k1 := abs_le.mp (key g hg)
    have k2 := abs_le.mp ((abs_re_sub (toH r) (toH P * g)).trans hrg)
    have k3 : |(toH r).re| = r.w := abs_of_nonneg hr0
    rw [k3] at k2
    norm_num at *
    linarith
  · intro h hh
    have k1 := abs_le.mp (key h hh)
    have k2 := hmax h hh
    norm_num at *
    linarith

/-- one entry of the table of `disori_angle_laue` -/
theorem triple_err {p : ℕ} (hp : 8 ≤ p) (hp' : p ≤ 53) {fl tab : ℝ → ℝ} (hfl : Nearest p fl) (ht : TableOk tab) {q1 q2 : Q}
    (hr : RepQ p q2) (h1 : |‖toH q1‖ - 1| ≤ 5 * (2 ^ p)⁻¹) (h2 : |‖toH q2‖ - 1| ≤ 5 * (2 ^ p)⁻¹) {g k : Q} (hg : IsUnit4 g) (hk : IsUnit4 k) :
    abs (rTripleProdPosReal fl (tabQ fl tab k) (rProd fl q1 (rConj fl q2)) (tabQ fl tab g) -
      |(toH k * (toH q1 * star (toH q2)) * toH g).re|) ≤ 36 * (2 ^ p)⁻¹ := by
  have hE : Err (2 ^ p)⁻¹ fl := hfl.err (by omega)
  have hu : (0 : ℝ) ≤ (2 ^ p)⁻¹ := by positivity
  have hs := small_u hp
  obtain ⟨s, hs1, hP⟩ := rel_err hp hfl hr h1 h2
  have hEn := rel_norm hu hs h1 h2
  unfold rTripleProdPosReal
  have hX := (prod_tab hp hp' hfl ht (rProd fl q1 (rConj fl q2)) hg).1
  have hkt := tab_err hp hp' hfl ht hk
  generalize rProd fl q1 (rConj fl q2) = P at *
  generalize toH q1 * star (toH q2) = E at *
  obtain ⟨s2, hs2, e⟩ := std_sign (rProdRaw fl P (tabQ fl tab g))
  have hX' : ‖toH (rProd fl P (tabQ fl tab g)) - s2 • (toH P * toH g)‖ ≤ 14 * (2 ^ p)⁻¹ * ‖toH P‖ := by
    unfold rProd; rw [e, ← smul_sub, sign_norm' hs2]; exact hX
  have hw := prod_w_err hu hE (tabQ fl tab k) (rProd fl P (tabQ fl tab g))
  have hdef : rProdPosReal fl (tabQ fl tab k) (rProd fl P (tabQ fl tab g)) = |(rProdRaw fl (tabQ fl tab k) (rProd fl P (tabQ fl tab g))).w| := rfl
  rw [hdef]
  generalize rProdRaw fl (tabQ fl tab k) (rProd fl P (tabQ fl tab g)) = W at *
  generalize rProd fl P (tabQ fl tab g) = X at *
  generalize ((2 : ℝ) ^ p)⁻¹ = u at *
  have hkn := tab_norm hs hk hkt
  generalize tabQ fl tab k = k' at *
  have b1 := abs_le.mp hEn
  have c1 := (norm_sub_norm_le (toH P) (s • E)).trans hP
  rw [sign_norm' hs1] at c1
  have hPn : ‖toH P‖ ≤ 1.08 := by norm_num at *; linarith
  have hPm : 14 * u * ‖toH P‖ ≤ 14 * u * 1.08 := mul_le_mul_of_nonneg_left hPn (by positivity)
  have d1 := (norm_sub_norm_le (toH X) (s2 • (toH P * toH g))).trans hX'
  rw [sign_norm' hs2, norm_mul, unitH_norm hg, mul_one] at d1
  have hXn : ‖toH X‖ ≤ 1.15 := by norm_num at *; linarith
  have hgam := gamma_le hu hs
  have hgam0 : 0 ≤ (1 + u) ^ 4 - 1 := by
    have : 1 ≤ (1 + u) ^ 4 := one_le_pow₀ (by linarith)
    linarith
  have a1 : ((1 + u) ^ 4 - 1) * (‖toH k'‖ * ‖toH X‖) ≤ 4.03 * u * (1.02 * 1.15) :=
    mul_le_mul hgam (mul_le_mul hkn hXn (norm_nonneg _) (by norm_num)) (by positivity) (by positivity)
  have t1 := (abs_abs_sub_abs_le W.w (toH k' * toH X).re).trans (hw.trans a1)
  have t2 := abs_re_sub (toH k' * toH X) (toH k * toH X)
  rw [← sub_mul, norm_mul] at t2
  have a2 : ‖toH k' - toH k‖ * ‖toH X‖ ≤ 5.02 * u * 1.15 := mul_le_mul hkt hXn (norm_nonneg _) (by positivity)
  have t3 := abs_re_sub (toH k * toH X) (toH k * (s2 • (toH P * toH g)))
  rw [← mul_sub, norm_mul, unitH_norm hk, one_mul, mul_smul_comm, sign_abs hs2, ← mul_assoc] at t3
  have t4 := abs_re_sub (toH k * toH P * toH g) (toH k * (s • E) * toH g)
  rw [← sub_mul, ← mul_sub, norm_mul, norm_mul, unitH_norm hk, unitH_norm hg, one_mul, mul_one, mul_smul_comm, smul_mul_assoc,
    sign_abs hs1] at t4
  have u1 := abs_le.mp t1
  have u2 := abs_le.mp (t2.trans a2)
  have u3 := abs_le.mp (t3.trans (hX'.trans hPm))
  have u4 := abs_le.mp (t4.trans hP)
  rw [abs_le]
  constructor <;> norm_num at * <;> linarith

/-- the value of which `disori_angle_laue` takes the arc cosine -/
theorem rDisori_spec {p : ℕ} (hp : 8 ≤ p) (hp' : p ≤ 53) {fl tab : ℝ → ℝ} (hfl : Nearest p fl) (ht : TableOk tab) (q1 q2 : Q)
    (hr : RepQ p q2) (h1 : |‖toH q1‖ - 1| ≤ 5 * (2 ^ p)⁻¹) (h2 : |‖toH q2‖ - 1| ≤ 5 * (2 ^ p)⁻¹) (n m : ℕ) (hn1 : 1 ≤ n) (hn2 : n ≤ 11)
    (hm1 : 1 ≤ m) (hm2 : m ≤ 11) :
    ∃ c, rDisoriAngle fl tab q1 q2 n m = some ((acosNan c).map fun a => fl (2 * a)) ∧ 0 ≤ c ∧
      (∃ g ∈ laueRotations n, ∃ h ∈ laueRotations m, c ≤ |(h * (toH q1 * star (toH q2)) * g).re| + 36 * (2 ^ p)⁻¹) ∧
      (∀ g ∈ laueRotations n, ∀ h ∈ laueRotations m, |(h * (toH q1 * star (toH q2)) * g).re| ≤ c + 36 * (2 ^ p)⁻¹) := by
  obtain ⟨l1, _, _, he1⟩ := laueElements_some n hn1 hn2
  obtain ⟨l2, _, _, he2⟩ := laueElements_some m hm1 hm2
  obtain ⟨t1, ht1⟩ := laue_ne_nil hn1 hn2 he1
  obtain ⟨t2, ht2⟩ := laue_ne_nil hm1 hm2 he2
  have hU1 := (rotGroup_laue hn1 hn2 he1).unit
  have hU2 := (rotGroup_laue hm1 hm2 he2).unit
  set G1 := l1.map XQ.toQ
  set G2 := l2.map XQ.toQ
  set M := rProd fl q1 (rConj fl q2) with hM
  set L := (G2.map (tabQ fl tab)).flatMap fun g2 => (G1.map (tabQ fl tab)).map fun g1 => rTripleProdPosReal fl g2 M g1 with hL
  have hne : L ≠ [] := by rw [hL, ht1, ht2]; simp
  obtain ⟨c, hc, hrow, hmax⟩ := rowMax_spec hne
  have hmem : ∀ x, x ∈ L ↔ ∃ k ∈ G2, ∃ g ∈ G1, x = rTripleProdPosReal fl (tabQ fl tab k) M (tabQ fl tab g) := by
    intro x
    rw [hL]
    simp only [List.mem_flatMap, List.mem_map]
    constructor
    · rintro ⟨_, ⟨k, hk, rfl⟩, _, ⟨g, hg, rfl⟩, rfl⟩; exact ⟨k, hk, g, hg, rfl⟩
    · rintro ⟨k, hk, g, hg, rfl⟩; exact ⟨_, ⟨k, hk, rfl⟩, _, ⟨g, hg, rfl⟩, rfl⟩
  obtain ⟨k, hk, g, hg, e⟩ := (hmem c).mp hc
  have tri : ∀ k ∈ G2, ∀ g ∈ G1, _ := fun k hk g hg => abs_le.mp (triple_err hp hp' hfl ht hr h1 h2 (hU1 g hg) (hU2 k hk))
  refine ⟨c, ?_, ?_, ⟨toH g, mem_rot hn1 hn2 he1 hg, toH k, mem_rot hm1 hm2 he2 hk, ?_⟩, ?_⟩
  · unfold rDisoriAngle
    rw [rLaue_eq fl tab he1, rLaue_eq fl tab he2]
    simp only [Option.bind_eq_bind, Option.bind_some]
    rw [← hM, ← hL, hrow]
    rfl
  · rw [e]; exact abs_nonneg _
  · have := (tri k hk g hg).2
    rw [e]; linarith
  · intro a ha b hb
    rw [gen_laue hn1 hn2 he1] at ha
    rw [gen_laue hm1 hm2 he2] at hb
    obtain ⟨g', hg', sg⟩ := ha
    obtain ⟨k', hk', sk⟩ := hb
    have e1 : |(b * (toH q1 * star (toH q2)) * a).re| = |(toH k' * (toH q1 * star (toH q2)) * toH g').re| :=
      ((SameUpToSign.mul_right _ (SameUpToSign.mul_right _ sk)).trans (SameUpToSign.mul_left _ sg)).abs_re
    have := (tri k' hk' g' hg').1
    have := hmax _ ((hmem _).mpr ⟨k', hk', g', hg', rfl⟩)
    rw [e1]; linarith

/-- C140 (partial): `disori_angle_laue` in floating-point arithmetic returns a number -- `2 arccos c` rounded, with `c` within `36 * 2^-p`
of the largest `|re(h q1 q2* g)|` over both Laue groups -- provided that maximum is at most `1 - 36 * 2^-p`.  Missing: orientations that
are (nearly) equivalent, for which the argument of the arc cosine can exceed 1 and the result is NaN, see `C140_disori_fails`. -/
theorem C140_disori_partial {p : ℕ} (hp : 8 ≤ p) (hp' : p ≤ 53) {fl tab : ℝ → ℝ} (hfl : Nearest p fl) (ht : TableOk tab) (q1 q2 : Q)
    (hr : RepQ p q2) (h1 : |‖toH q1‖ - 1| ≤ 5 * (2 ^ p)⁻¹) (h2 : |‖toH q2‖ - 1| ≤ 5 * (2 ^ p)⁻¹) (n m : ℕ) (hn1 : 1 ≤ n) (hn2 : n ≤ 11)
    (hm1 : 1 ≤ m) (hm2 : m ≤ 11)
    (hfar : ∀ g ∈ laueRotations n, ∀ h ∈ laueRotations m, |(h * (toH q1 * star (toH q2)) * g).re| ≤ 1 - 36 * (2 ^ p)⁻¹) :
    ∃ c, rDisoriAngle fl tab q1 q2 n m = some (some (fl (2 * Real.arccos c))) ∧ 0 ≤ c ∧ c ≤ 1 ∧
      (∃ g ∈ laueRotations n, ∃ h ∈ laueRotations m, c ≤ |(h * (toH q1 * star (toH q2)) * g).re| + 36 * (2 ^ p)⁻¹) ∧
      (∀ g ∈ laueRotations n, ∀ h ∈ laueRotations m, |(h * (toH q1 * star (toH q2)) * g).re| ≤ c + 36 * (2 ^ p)⁻¹) := by
  obtain ⟨c, hc, h0, ⟨g, hg, h, hh, hle⟩, hall⟩ := rDisori_spec hp hp' hfl ht q1 q2 hr h1 h2 n m hn1 hn2 hm1 hm2
  have hc1 : c ≤ 1 := by have := hfar g hg h hh; linarith
  refine ⟨c, ?_, h0, hc1, ⟨g, hg, h, hh, hle⟩, hall⟩
  rw [hc]
  unfold acosNan
  rw [if_pos ⟨by linarith, hc1⟩]
  rfl

end Verif
