import Verif.Props.RoundedDisori
/-! C140: the NaN of `disori_angle_laue` for equal orientations in single and double precision, and concrete cases of C138-C141. -/
open Quaternion
namespace Verif
open Spec

theorem tabQ_one {p : ℕ} (hp : 0 < p) {fl tab : ℝ → ℝ} (hfl : Nearest p fl) (ht : TableOk tab) : tabQ fl tab ⟨1, 0, 0, 0⟩ = ⟨1, 0, 0, 0⟩ := by
  unfold tabQ
  rw [ht.one, ht.zero, hfl.one hp, hfl.zero]

theorem prod_one_w {p : ℕ} {fl : ℝ → ℝ} (hfl : Nearest p fl) {q : Q} (hw : Rep p q.w) :
    (rProd fl q ⟨1, 0, 0, 0⟩).w = |q.w| := by
  unfold rProd
  rw [std_w]
  unfold rProdRaw rSum4
  simp only [mul_one, mul_zero, hfl.zero, neg_zero, add_zero, hfl.of_rep hw]

theorem posReal_one {p : ℕ} {fl : ℝ → ℝ} (hfl : Nearest p fl) {q : Q} (hw : Rep p q.w) :
    rProdPosReal fl ⟨1, 0, 0, 0⟩ q = |q.w| := by
  unfold rProdPosReal rSum4
  simp only [one_mul, zero_mul, hfl.zero, neg_zero, add_zero, hfl.of_rep hw]

/-- if the rounded product has a scalar part above 1, the angles are NaN -/
theorem nan_of_gt {p : ℕ} (hp : 0 < p) {fl tab : ℝ → ℝ} (hfl : Nearest p fl) (ht : TableOk tab) (q1 q2 : Q)
    (h : 1 < (rProdRaw fl q1 (rConj fl q2)).w) (n m : ℕ) (hn1 : 1 ≤ n) (hn2 : n ≤ 11) (hm1 : 1 ≤ m) (hm2 : m ≤ 11) :
    rDisoriAngle fl tab q1 q2 n m = some none ∧ rAngle fl (rProd fl q1 (rConj fl q2)) = none := by
  set M := rProd fl q1 (rConj fl q2) with hM
  have hMr : RepQ p M := repQ_prod hfl _ _
  have hMw : 1 < M.w := by
    rw [hM]; unfold rProd; rw [std_w]; exact h.trans_le (le_abs_self _)
  have nan : ∀ x : ℝ, 1 < x → acosNan x = none := by
    intro x hx
    unfold acosNan
    rw [if_neg (fun hc => absurd hc.2 (not_le.mpr hx))]
  constructor
  · obtain ⟨l1, _, _, he1⟩ := laueElements_some n hn1 hn2
    obtain ⟨l2, _, _, he2⟩ := laueElements_some m hm1 hm2
    obtain ⟨t1, ht1⟩ := laue_ne_nil hn1 hn2 he1
    obtain ⟨t2, ht2⟩ := laue_ne_nil hm1 hm2 he2
    unfold rDisoriAngle
    rw [rLaue_eq fl tab he1, rLaue_eq fl tab he2, ht1, ht2]
    simp only [Option.bind_eq_bind, Option.bind_some, List.map_cons, tabQ_one hp hfl ht, ← hM]
    set L := List.flatMap _ _ with hL
    have hmem : M.w ∈ L := by
      rw [hL]
      simp only [List.flatMap_cons, List.cons_append, List.mem_cons]
      left
      unfold rTripleProdPosReal
      rw [posReal_one hfl (repQ_prod hfl _ _).1, prod_one_w hfl hMr.1, abs_abs, abs_of_pos (by linarith)]
    obtain ⟨c, -, hrow, hmax⟩ := rowMax_spec (List.ne_nil_of_mem hmem)
    rw [hrow, Option.bind_some, nan c (hMw.trans_le (hmax _ hmem))]
    rfl
  · unfold rAngle
    rw [nan _ hMw]
    rfl

/-- the orientation with quaternion (4, 2, 2, 1) / 5, each component rounded -/
noncomputable def witness (fl : ℝ → ℝ) : Q := ⟨fl (4 / 5), fl (2 / 5), fl (2 / 5), fl (1 / 5)⟩

theorem witness_rep {p : ℕ} {fl : ℝ → ℝ} (hfl : Nearest p fl) : RepQ p (witness fl) := ⟨hfl.rep _, hfl.rep _, hfl.rep _, hfl.rep _⟩

theorem mul_neg_one_fl {p : ℕ} {fl : ℝ → ℝ} (hfl : Nearest p fl) {x : ℝ} (h : Rep p x) : fl (x * -1) = -x := by
  rw [mul_neg_one]; exact hfl.of_rep h.neg

theorem fl_neg_mul {p : ℕ} {fl : ℝ → ℝ} {x y z : ℝ} {m e : ℤ} (hfl : Nearest p fl) (h1 : 2 ^ p < 2 * |m|) (h2 : |m| < 2 ^ p)
    (hz : z = -(x * y)) (hx : |x * y - m * (2 : ℝ) ^ e| < (2 : ℝ) ^ e / 2) : -fl z = m * (2 : ℝ) ^ e := by
  have := hfl.eval (x := z) (m := -m) (e := e) (by rwa [abs_neg]) (by rwa [abs_neg]) (by
    rw [hz, Int.cast_neg]
    have : -(x * y) - -(m : ℝ) * 2 ^ e = -(x * y - m * 2 ^ e) := by ring
    rwa [this, abs_neg])
  rw [this, Int.cast_neg]; ring

theorem witness24 {fl : ℝ → ℝ} (hfl : Nearest 24 fl) : (rProdRaw fl (witness fl) (rConj fl (witness fl))).w = 1 + 2 ^ (-23 : ℤ) := by
  have w : fl (4 / 5) = (13421773 : ℤ) * (2 : ℝ) ^ (-24 : ℤ) := hfl.eval (by norm_num) (by norm_num) (by norm_num [abs_lt])
  have x : fl (2 / 5) = (13421773 : ℤ) * (2 : ℝ) ^ (-25 : ℤ) := hfl.eval (by norm_num) (by norm_num) (by norm_num [abs_lt])
  have z : fl (1 / 5) = (13421773 : ℤ) * (2 : ℝ) ^ (-26 : ℤ) := hfl.eval (by norm_num) (by norm_num) (by norm_num [abs_lt])
  unfold rProdRaw rConj
  dsimp only
  obtain ⟨rw', rx, ry, rz⟩ := witness_rep hfl
  rw [mul_one, hfl.of_rep rw', mul_neg_one_fl hfl rx, mul_neg_one_fl hfl ry, mul_neg_one_fl hfl rz]
  unfold witness
  dsimp only
  have ww : fl (fl (4 / 5) * fl (4 / 5)) = (10737419 : ℤ) * (2 : ℝ) ^ (-24 : ℤ) := by
    rw [w]; exact hfl.eval (by norm_num) (by norm_num) (by norm_num [abs_lt])
  have xx : -fl (fl (2 / 5) * -fl (2 / 5)) = (10737419 : ℤ) * (2 : ℝ) ^ (-26 : ℤ) := by
    rw [x]; exact fl_neg_mul hfl (by norm_num) (by norm_num) (mul_neg _ _) (by norm_num [abs_lt])
  have zz : -fl (fl (1 / 5) * -fl (1 / 5)) = (10737419 : ℤ) * (2 : ℝ) ^ (-28 : ℤ) := by
    rw [z]; exact fl_neg_mul hfl (by norm_num) (by norm_num) (mul_neg _ _) (by norm_num [abs_lt])
  rw [ww, xx, zz]
  unfold rSum4
  have s1 : fl ((10737419 : ℤ) * (2 : ℝ) ^ (-24 : ℤ) + (10737419 : ℤ) * (2 : ℝ) ^ (-26 : ℤ)) = (13421774 : ℤ) * (2 : ℝ) ^ (-24 : ℤ) :=
    hfl.eval (by norm_num) (by norm_num) (by norm_num [abs_lt])
  rw [s1]
  have s2 : fl ((13421774 : ℤ) * (2 : ℝ) ^ (-24 : ℤ) + (10737419 : ℤ) * (2 : ℝ) ^ (-26 : ℤ)) = (16106129 : ℤ) * (2 : ℝ) ^ (-24 : ℤ) :=
    hfl.eval (by norm_num) (by norm_num) (by norm_num [abs_lt])
  rw [s2]
  have s3 : fl ((16106129 : ℤ) * (2 : ℝ) ^ (-24 : ℤ) + (10737419 : ℤ) * (2 : ℝ) ^ (-28 : ℤ)) = (8388609 : ℤ) * (2 : ℝ) ^ (-23 : ℤ) :=
    hfl.eval (by norm_num) (by norm_num) (by norm_num [abs_lt])
  rw [s3]
  norm_num

theorem witness53 {fl : ℝ → ℝ} (hfl : Nearest 53 fl) : (rProdRaw fl (witness fl) (rConj fl (witness fl))).w = 1 + 2 ^ (-52 : ℤ) := by
  have w : fl (4 / 5) = (7205759403792794 : ℤ) * (2 : ℝ) ^ (-53 : ℤ) := hfl.eval (by norm_num) (by norm_num) (by norm_num [abs_lt])
  have x : fl (2 / 5) = (7205759403792794 : ℤ) * (2 : ℝ) ^ (-54 : ℤ) := hfl.eval (by norm_num) (by norm_num) (by norm_num [abs_lt])
  have z : fl (1 / 5) = (7205759403792794 : ℤ) * (2 : ℝ) ^ (-55 : ℤ) := hfl.eval (by norm_num) (by norm_num) (by norm_num [abs_lt])
  unfold rProdRaw rConj
  dsimp only
  obtain ⟨rw', rx, ry, rz⟩ := witness_rep hfl
  rw [mul_one, hfl.of_rep rw', mul_neg_one_fl hfl rx, mul_neg_one_fl hfl ry, mul_neg_one_fl hfl rz]
  unfold witness
  dsimp only
  have ww : fl (fl (4 / 5) * fl (4 / 5)) = (5764607523034236 : ℤ) * (2 : ℝ) ^ (-53 : ℤ) := by
    rw [w]; exact hfl.eval (by norm_num) (by norm_num) (by norm_num [abs_lt])
  have xx : -fl (fl (2 / 5) * -fl (2 / 5)) = (5764607523034236 : ℤ) * (2 : ℝ) ^ (-55 : ℤ) := by
    rw [x]; exact fl_neg_mul hfl (by norm_num) (by norm_num) (mul_neg _ _) (by norm_num [abs_lt])
  have zz : -fl (fl (1 / 5) * -fl (1 / 5)) = (5764607523034236 : ℤ) * (2 : ℝ) ^ (-57 : ℤ) := by
    rw [z]; exact fl_neg_mul hfl (by norm_num) (by norm_num) (mul_neg _ _) (by norm_num [abs_lt])
  rw [ww, xx, zz]
  unfold rSum4
  have s1 : fl ((5764607523034236 : ℤ) * (2 : ℝ) ^ (-53 : ℤ) + (5764607523034236 : ℤ) * (2 : ℝ) ^ (-55 : ℤ)) =
      (7205759403792795 : ℤ) * (2 : ℝ) ^ (-53 : ℤ) := hfl.eval (by norm_num) (by norm_num) (by norm_num [abs_lt])
  rw [s1]
  have s2 : fl ((7205759403792795 : ℤ) * (2 : ℝ) ^ (-53 : ℤ) + (5764607523034236 : ℤ) * (2 : ℝ) ^ (-55 : ℤ)) =
      (8646911284551354 : ℤ) * (2 : ℝ) ^ (-53 : ℤ) := hfl.eval (by norm_num) (by norm_num) (by norm_num [abs_lt])
  rw [s2]
  have s3 : fl ((8646911284551354 : ℤ) * (2 : ℝ) ^ (-53 : ℤ) + (5764607523034236 : ℤ) * (2 : ℝ) ^ (-57 : ℤ)) =
      (4503599627370497 : ℤ) * (2 : ℝ) ^ (-52 : ℤ) := hfl.eval (by norm_num) (by norm_num) (by norm_num [abs_lt])
  rw [s3]
  norm_num

/-- C140: the partial theorem cannot be extended to equivalent orientations.  In single and in double precision the unit quaternion
(4, 2, 2, 1) / 5 with its components rounded has the disorientation angle NaN from itself, for every pair of Laue groups (exactly: 0), and so
has the rotation angle `qu_angle` of the product of the quaternion and its conjugate. -/
theorem C140_disori_fails {p : ℕ} (hp : p = 24 ∨ p = 53) {fl tab : ℝ → ℝ} (hfl : Nearest p fl) (ht : TableOk tab) (n m : ℕ)
    (hn1 : 1 ≤ n) (hn2 : n ≤ 11) (hm1 : 1 ≤ m) (hm2 : m ≤ 11) :
    IsUnit4 ⟨4 / 5, 2 / 5, 2 / 5, 1 / 5⟩ ∧
    rDisoriAngle fl tab ⟨fl (4 / 5), fl (2 / 5), fl (2 / 5), fl (1 / 5)⟩ ⟨fl (4 / 5), fl (2 / 5), fl (2 / 5), fl (1 / 5)⟩ n m = some none ∧
    rAngle fl (rProd fl ⟨fl (4 / 5), fl (2 / 5), fl (2 / 5), fl (1 / 5)⟩ (rConj fl ⟨fl (4 / 5), fl (2 / 5), fl (2 / 5), fl (1 / 5)⟩)) = none := by
  refine ⟨by unfold IsUnit4; norm_num, nan_of_gt (q1 := witness fl) (q2 := witness fl) (by omega) hfl ht ?_ n m hn1 hn2 hm1 hm2⟩
  rcases hp with rfl | rfl
  · rw [witness24 hfl]; norm_num
  · rw [witness53 hfl]; norm_num

/-! ### concrete cases -/

theorem tableOk_id : TableOk id := ⟨fun x => by simp, rfl⟩

theorem one_unit (p : ℕ) : |‖toH ⟨1, 0, 0, 0⟩‖ - 1| ≤ 5 * ((2 : ℝ) ^ p)⁻¹ := by
  rw [unitH_norm (by unfold IsUnit4; norm_num), sub_self, abs_zero]; positivity

theorem i_unit (p : ℕ) : |‖toH ⟨0, 1, 0, 0⟩‖ - 1| ≤ 5 * ((2 : ℝ) ^ p)⁻¹ := by
  rw [unitH_norm (by unfold IsUnit4; norm_num), sub_self, abs_zero]; positivity

/-- C138-C140: single precision, the constructed rounding, a chain of 1000 half turns -/
example : |‖toH ((List.replicate 1000 (⟨0, 1, 0, 0⟩ : Q)).foldl (rProd (rnd 24)) ⟨1, 0, 0, 0⟩)‖ - 1| ≤ 17 * (1000 + 1) * (2 ^ 24)⁻¹ := by
  have := (C138_unit (by norm_num) (rnd_nearest (p := 24) (by norm_num)) ⟨1, 0, 0, 0⟩ (List.replicate 1000 ⟨0, 1, 0, 0⟩)
    (by rw [List.length_replicate]; norm_num) (one_unit 24) (by
      intro q hq; rw [List.eq_of_mem_replicate hq]; exact i_unit 24)).1
  rw [List.length_replicate] at this
  exact_mod_cast this

example := C138_normalise (p := 53) (by norm_num) (rnd_nearest (by norm_num)) ⟨1, 2, 3, 4⟩ (by
  intro h
  have := congrArg (fun x : ℍ[ℝ] => x.re) h
  change (1 : ℝ) = 0 at this
  norm_num at this)

example := C141_reduce (p := 24) (by norm_num) (by norm_num) (rnd_nearest (by norm_num)) tableOk_id ⟨1, 2, 3, 4⟩ 11 (by norm_num) (by norm_num)

theorem one_rep (p : ℕ) (hp : 0 < p) : RepQ p ⟨1, 0, 0, 0⟩ := ⟨Rep.one hp, Rep.zero p, Rep.zero p, Rep.zero p⟩

example := C140_ori_angle (p := 24) (by norm_num) (by norm_num) (rnd_nearest (by norm_num)) tableOk_id ⟨0, 1, 0, 0⟩ ⟨1, 0, 0, 0⟩
  (one_rep 24 (by norm_num)) (i_unit 24) (one_unit 24) 9 (by norm_num) (by norm_num)

/-- C140: a half turn about x in the triclinic group is far from every equivalent of the identity -/
example := C140_disori_partial (p := 24) (by norm_num) (by norm_num) (rnd_nearest (by norm_num)) tableOk_id ⟨0, 1, 0, 0⟩ ⟨1, 0, 0, 0⟩
  (one_rep 24 (by norm_num)) (i_unit 24) (one_unit 24) 1 1 (by norm_num) (by norm_num) (by norm_num) (by norm_num) (by
    have h1 : ∀ g ∈ laueRotations 1, g = 1 ∨ g = -1 := by
      intro g hg
      obtain ⟨l, _, hl, he⟩ := laueElements_some 1 (by norm_num) (by norm_num)
      rw [gen_laue (by norm_num) (by norm_num) he] at hg
      obtain ⟨g', hg', hs⟩ := hg
      have e : l = [oneX] := by
        have : laueGroupsX[1 - 1]? = some [oneX] := by decide +kernel
        rw [this] at hl
        exact (Option.some.inj hl).symm
      rw [e, List.map_cons, List.map_nil, List.mem_singleton] at hg'
      rw [hg', one_toH] at hs
      exact hs
    intro g hg h hh
    have e : |(h * (toH ⟨0, 1, 0, 0⟩ * star (toH ⟨1, 0, 0, 0⟩)) * g).re| = 0 := by
      rcases h1 g hg with rfl | rfl <;> rcases h1 h hh with rfl | rfl <;> simp
    rw [e]
    norm_num)

example := C140_disori_fails (p := 24) (Or.inl rfl) (rnd_nearest (by norm_num)) tableOk_id 11 11 (by norm_num) (by norm_num) (by norm_num) (by norm_num)

end Verif
