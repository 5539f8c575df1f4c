import Verif.Model.Sampling
import Verif.Spec.Rotation
import Verif.Props.Cubo
/-!
C62: the samplers return the requested number of unit quaternions / unit vectors.
-/
namespace Verif.Samp
open Verif Verif.Cubo Verif.Spec Real

theorem sq_sum (a b u v : ℝ) (ha : 0 ≤ a) (hb : 0 ≤ b) (hab : a + b = 1) :
    (√a * sin u) ^ 2 + (√a * cos u) ^ 2 + (√b * sin v) ^ 2 + (√b * cos v) ^ 2 = 1 := by
  simp only [mul_pow, sq_sqrt ha, sq_sqrt hb]
  linear_combination a * sin_sq_add_cos_sq u + b * sin_sq_add_cos_sq v + hab

/-- C62: `so3_fibonacci(n)` returns `n` unit quaternions, for every `n`. -/
theorem C62_so3_fibonacci (n : ℕ) : (so3Fibonacci n).length = n ∧ ∀ q ∈ so3Fibonacci n, IsUnit4 q := by
  refine ⟨by simp [so3Fibonacci], fun q hq => ?_⟩
  simp only [so3Fibonacci, List.mem_map, List.mem_range] at hq
  obtain ⟨i, hi, rfl⟩ := hq
  have hn : (0:ℝ) < n := by exact_mod_cast (Nat.zero_le i).trans_lt hi
  have hi' : (i:ℝ) + 1 ≤ n := by exact_mod_cast hi
  unfold IsUnit4
  apply sq_sum
  · positivity
  · rw [sub_nonneg, div_le_one hn]; norm_num; linarith
  · ring

/-- C62: consecutive samples of `so3_fibonacci` are different rotations of the sequence: the first
pair of components has squared norm `(i + ½)/n`, which is strictly increasing in `i`, so all samples are
distinct and none is the negative of another. -/
theorem C62_so3_fibonacci_distinct (n : ℕ) :
    (so3Fibonacci n).Pairwise fun p q => toH p ≠ toH q ∧ toH p ≠ -toH q := by
  unfold so3Fibonacci
  rw [List.pairwise_map]
  apply List.Pairwise.imp_of_mem (R := (· < ·)) _ List.pairwise_lt_range
  intro i j hi hj hij
  have hn : (0:ℝ) < n := by exact_mod_cast (Nat.zero_le i).trans_lt (List.mem_range.mp hi)
  have key : ∀ (a b c d u v : ℝ), 0 ≤ a → 0 ≤ b → (√a * sin u) ^ 2 + (√a * cos u) ^ 2 =
      (√b * sin v) ^ 2 + (√b * cos v) ^ 2 → a = b := by
    intro a b c d u v ha hb h
    simp only [mul_pow, sq_sqrt ha, sq_sqrt hb] at h
    linear_combination h - a * sin_sq_add_cos_sq u + b * sin_sq_add_cos_sq v
  have hne : ((i:ℝ) + 0.5) / n ≠ ((j:ℝ) + 0.5) / n := by
    intro h
    rw [div_left_inj' hn.ne'] at h
    have : (i:ℝ) = j := by linarith
    exact hij.ne (by exact_mod_cast this)
  constructor <;> intro h <;> apply hne
  · have h1 := congrArg QuaternionAlgebra.re h
    have h2 := congrArg QuaternionAlgebra.imI h
    simp only [toH] at h1 h2
    apply key _ _ 0 0 _ _ (by positivity) (by positivity)
    rw [h1, h2]
  · have h1 := congrArg QuaternionAlgebra.re h
    have h2 := congrArg QuaternionAlgebra.imI h
    rw [Quaternion.re_neg] at h1
    rw [Quaternion.imI_neg] at h2
    simp only [toH] at h1 h2
    apply key _ _ 0 0 _ _ (by positivity) (by positivity)
    rw [h1, h2, neg_sq, neg_sq]

/-- C62: `so3_uniform_quat` returns one unit quaternion per draw, for all draws in `[0, 1]`. -/
theorem C62_so3_uniform (draws : List V) (h : ∀ d ∈ draws, 0 ≤ d.x ∧ d.x ≤ 1) :
    (so3UniformQuat draws).length = draws.length ∧ ∀ q ∈ so3UniformQuat draws, IsUnit4 q := by
  refine ⟨by simp [so3UniformQuat], fun q hq => ?_⟩
  simp only [so3UniformQuat, List.mem_map] at hq
  obtain ⟨d, hd, rfl⟩ := hq
  exact sq_sum _ _ _ _ (by linarith [h d hd]) (h d hd).1 (by ring)

theorem ax2qu_unit (a : AX) (h : IsUnit3 a.n) : IsUnit4 (ax2qu a) := by
  unfold IsUnit4 ax2qu; unfold IsUnit3 at h
  simp only
  linear_combination sin (a.ang / 2) ^ 2 * h + cos_sq_add_sin_sq (a.ang / 2)

/-- C62: homochoric and cubochoric vectors are converted to unit quaternions, with either fit and with
or without the Newton step. -/
theorem C62_ho2ax_axis (single fast : Bool) (ho : V) : IsUnit3 (ho2ax single fast ho).n := by
  unfold ho2ax
  simp only
  split
  · unfold IsUnit3; simp
  · rename_i h
    have h0 : 0 ≤ ho.x ^ 2 + ho.y ^ 2 + ho.z ^ 2 := by positivity
    rw [abs_of_nonneg h0] at h
    have hp : 0 < ho.x ^ 2 + ho.y ^ 2 + ho.z ^ 2 := by
      rcases h0.lt_or_eq with h' | h'
      · exact h'
      · rw [← h'] at h; norm_num at h
    unfold IsUnit3 V.smul
    simp only [mul_pow, div_pow, one_pow, sq_sqrt h0]
    field_simp

/-- C62: `cu2qu` always returns a unit quaternion. -/
theorem C62_cu2qu_unit (A : Argsort) (single : Bool) (cu : V) : IsUnit4 (cu2qu A single cu) :=
  ax2qu_unit _ (C62_ho2ax_axis _ _ _)

theorem quStd_unit {q : Q} (h : IsUnit4 q) : IsUnit4 (quStd q) ∧ 0 ≤ (quStd q).w := by
  unfold quStd
  split
  · rename_i hw; exact ⟨h, hw⟩
  · rename_i hw
    refine ⟨?_, ?_⟩
    · unfold IsUnit4 at h ⊢; simp only [Q.neg, neg_sq]; exact h
    · simp only [Q.neg]; push Not at hw; linarith

theorem sdiv_unit {q : Q} (h : IsUnit4 q) : IsUnit4 (q.sdiv q.norm) := by
  have hn : q.norm = 1 := by unfold Q.norm; unfold IsUnit4 at h; rw [h, sqrt_one]
  rw [hn]; unfold IsUnit4 Q.sdiv at *; simpa using h

theorem linspace_length (a b : ℝ) (n : ℕ) : (linspace a b n).length = n := by
  unfold linspace; split <;> simp_all

theorem mesh3_length (c : List ℝ) : (mesh3 c).length = c.length ^ 3 := by
  unfold mesh3
  simp only [List.length_flatMap, List.length_map, List.map_const', List.sum_replicate, smul_eq_mul]
  ring

theorem mem_mesh3 (c : List ℝ) (v : V) : v ∈ mesh3 c ↔ v.x ∈ c ∧ v.y ∈ c ∧ v.z ∈ c := by
  unfold mesh3
  simp only [List.mem_flatMap, List.mem_map]
  constructor
  · rintro ⟨x, hx, y, hy, z, hz, rfl⟩; exact ⟨hx, hy, hz⟩
  · rintro ⟨hx, hy, hz⟩; exact ⟨_, hx, _, hy, _, hz, rfl⟩

theorem mesh3_nodup {c : List ℝ} (h : c.Nodup) : (mesh3 c).Nodup := by
  unfold mesh3
  rw [List.nodup_flatMap]
  refine ⟨fun x _ => ?_, ?_⟩
  · rw [List.nodup_flatMap]
    refine ⟨fun y _ => ?_, ?_⟩
    · exact h.map fun a b hab => by simpa using hab
    · refine h.imp fun {a b} hab => ?_
      intro v h1 h2
      obtain ⟨_, _, rfl⟩ := List.mem_map.mp h1
      obtain ⟨_, _, h⟩ := List.mem_map.mp h2
      exact hab (by simpa using (congrArg V.y h).symm)
  · refine h.imp fun {a b} hab => ?_
    intro v h1 h2
    obtain ⟨_, _, h1⟩ := List.mem_flatMap.mp h1
    obtain ⟨_, _, rfl⟩ := List.mem_map.mp h1
    obtain ⟨_, _, h2⟩ := List.mem_flatMap.mp h2
    obtain ⟨_, _, h⟩ := List.mem_map.mp h2
    exact hab (by simpa using (congrArg V.x h).symm)

theorem cubo_axis (e : ℕ) : (linspace (-0.5 * π ^ ((2 : ℝ) / 3)) (0.5 * π ^ ((2 : ℝ) / 3)) (e + 1)).dropLast =
    (List.range e).map fun i : ℕ => (-(1 / 2) + (i : ℝ) / e) * π ^ ((2 : ℝ) / 3) := by
  unfold linspace
  rcases Nat.eq_zero_or_pos e with h | h
  · subst h; simp
  · rw [if_neg (by omega), ← List.map_dropLast, List.range_succ, List.dropLast_concat]
    apply List.map_congr_left
    intro i _
    have : (e:ℝ) ≠ 0 := by positivity
    push_cast
    rw [add_sub_cancel_right]
    field_simp
    norm_num
    ring

/-- C62: the cubochoric grid consists of `edge³` pairwise different points: exactly the points with
coordinates `(-½ + i/edge) π^(2/3)`, `0 ≤ i < edge`, all inside the half-open cubochoric cube. -/
theorem C62_cubochoric_points (edge : ℕ) :
    (cubochoricPoints edge).length = edge ^ 3 ∧ (cubochoricPoints edge).Nodup ∧
    (∀ v, v ∈ cubochoricPoints edge ↔ ∃ i j k : ℕ, i < edge ∧ j < edge ∧ k < edge ∧
      v = ⟨(-(1 / 2) + (i : ℝ) / edge) * π ^ ((2 : ℝ) / 3), (-(1 / 2) + (j : ℝ) / edge) * π ^ ((2 : ℝ) / 3),
        (-(1 / 2) + (k : ℝ) / edge) * π ^ ((2 : ℝ) / 3)⟩) ∧
    (∀ v ∈ cubochoricPoints edge, ∀ a ∈ [v.x, v.y, v.z],
      -(1 / 2) * π ^ ((2 : ℝ) / 3) ≤ a ∧ a < 1 / 2 * π ^ ((2 : ℝ) / 3)) := by
  have hp : 0 < π ^ ((2 : ℝ) / 3) := rpow_pos_of_pos pi_pos _
  have hmem : ∀ v, v ∈ cubochoricPoints edge ↔ ∃ i j k : ℕ, i < edge ∧ j < edge ∧ k < edge ∧
      v = ⟨(-(1 / 2) + (i : ℝ) / edge) * π ^ ((2 : ℝ) / 3), (-(1 / 2) + (j : ℝ) / edge) * π ^ ((2 : ℝ) / 3),
        (-(1 / 2) + (k : ℝ) / edge) * π ^ ((2 : ℝ) / 3)⟩ := by
    intro v
    unfold cubochoricPoints
    rw [mem_mesh3, cubo_axis]
    simp only [List.mem_map, List.mem_range]
    constructor
    · rintro ⟨⟨i, hi, h1⟩, ⟨j, hj, h2⟩, ⟨k, hk, h3⟩⟩
      exact ⟨i, j, k, hi, hj, hk, by rw [h1, h2, h3]⟩
    · rintro ⟨i, j, k, hi, hj, hk, rfl⟩
      exact ⟨⟨i, hi, rfl⟩, ⟨j, hj, rfl⟩, ⟨k, hk, rfl⟩⟩
  refine ⟨?_, ?_, hmem, ?_⟩
  · unfold cubochoricPoints; rw [mesh3_length, cubo_axis]; simp
  · unfold cubochoricPoints
    apply mesh3_nodup
    rw [cubo_axis]
    refine List.nodup_range.map_on ?_
    intro i hi j _ h
    have he : (edge:ℝ) ≠ 0 := by
      have := List.mem_range.mp hi
      have : 0 < edge := by omega
      positivity
    have h1 := mul_right_cancel₀ hp.ne' h
    have h2 : (i:ℝ) / edge = (j:ℝ) / edge := by linarith
    rw [div_left_inj' he] at h2
    exact_mod_cast h2
  · intro v hv a ha
    have hr : ∀ i : ℕ, i < edge → -(1 / 2) * π ^ ((2 : ℝ) / 3) ≤ (-(1 / 2) + (i : ℝ) / edge) * π ^ ((2 : ℝ) / 3) ∧
        (-(1 / 2) + (i : ℝ) / edge) * π ^ ((2 : ℝ) / 3) < 1 / 2 * π ^ ((2 : ℝ) / 3) := by
      intro i hi
      have he : (0:ℝ) < edge := by exact_mod_cast (Nat.zero_le i).trans_lt hi
      have h0 : 0 ≤ (i:ℝ) / edge := by positivity
      have h1 : (i:ℝ) / edge < 1 := by rw [div_lt_one he]; exact_mod_cast hi
      constructor
      · gcongr; linarith
      · gcongr; linarith
    obtain ⟨i, j, k, hi, hj, hk, rfl⟩ := (hmem v).mp hv
    simp only [List.mem_cons, List.not_mem_nil, or_false] at ha
    rcases ha with rfl | rfl | rfl
    exacts [hr i hi, hr j hj, hr k hk]

/-- C62: `so3_cubochoric_grid(edge)` returns `edge³` unit quaternions with non-negative scalar part,
and so does `so3_cu_rand` for every draw. -/
theorem C62_cubochoric_grid (A : Argsort) (single : Bool) (edge : ℕ) (draws : List V) :
    (so3CubochoricGrid A single edge).length = edge ^ 3 ∧
    (∀ q ∈ so3CubochoricGrid A single edge, IsUnit4 q ∧ 0 ≤ q.w) ∧
    (so3CuRand A single draws).length = draws.length ∧
    (∀ q ∈ so3CuRand A single draws, IsUnit4 q ∧ 0 ≤ q.w) := by
  refine ⟨?_, ?_, by simp [so3CuRand], ?_⟩
  · unfold so3CubochoricGrid; rw [List.length_map]; exact (C62_cubochoric_points edge).1
  · intro q hq
    obtain ⟨cu, _, rfl⟩ := List.mem_map.mp hq
    exact quStd_unit (C62_cu2qu_unit _ _ _)
  · intro q hq
    obtain ⟨u, _, rfl⟩ := List.mem_map.mp hq
    exact quStd_unit (sdiv_unit (C62_cu2qu_unit _ _ _))

/-- C62: `s2_fibonacci` returns `n` unit vectors for both modes and every `n`; the argument of `acos` is
always strictly inside `(-1, 1)`, so no NaN arises; any other mode raises. -/
theorem C62_s2_fibonacci (n : ℕ) (mode : String) :
    (mode = "avg" ∨ mode = "max" → ∃ eps l, fibEps mode n = some eps ∧ s2Fibonacci mode n = some l ∧ l.length = n ∧
      (∀ v ∈ l, IsUnit3 v) ∧ ∀ i < n, -1 < fibArg eps n i ∧ fibArg eps n i < 1) ∧
    (mode ≠ "avg" → mode ≠ "max" → s2Fibonacci mode n = none) := by
  constructor
  · intro h
    obtain ⟨eps, he, hpos⟩ : ∃ eps, fibEps mode n = some eps ∧ 0 < eps := by
      unfold fibEps
      rcases h with rfl | rfl
      · exact ⟨0.36, by simp, by norm_num⟩
      · refine ⟨_, by simp; rfl, ?_⟩
        split_ifs <;> norm_num
    refine ⟨eps, _, he, by unfold s2Fibonacci; rw [he]; rfl, by simp, ?_, ?_⟩
    · intro v hv
      obtain ⟨i, _, rfl⟩ := List.mem_map.mp hv
      unfold IsUnit3 thetaPhiToXyz
      simp only
      generalize arccos _ = p
      generalize 2 * π * (i:ℝ) / _ = t
      linear_combination sin p ^ 2 * cos_sq_add_sin_sq t + cos_sq_add_sin_sq p
    · intro i hi
      have hi' : (i:ℝ) + 1 ≤ n := by exact_mod_cast hi
      have hi0 : (0:ℝ) ≤ i := by positivity
      have hd : 0 < (n:ℝ) - 1 + 2 * eps := by linarith
      unfold fibArg
      constructor
      · have : 2 * ((i:ℝ) + eps) / ((n:ℝ) - 1 + 2 * eps) < 2 := by rw [div_lt_iff₀ hd]; linarith
        linarith
      · have : 0 < 2 * ((i:ℝ) + eps) / ((n:ℝ) - 1 + 2 * eps) := by positivity
        linarith
  · intro h1 h2
    unfold s2Fibonacci fibEps
    rw [if_neg h1, if_neg h2]; rfl

/-- non-vacuity -/
example : (so3Fibonacci 5).length = 5 ∧ ∃ q, q ∈ so3Fibonacci 5 ∧ IsUnit4 q := by
  obtain ⟨h1, h2⟩ := C62_so3_fibonacci 5
  refine ⟨h1, _, List.getElem_mem (by rw [h1]; norm_num : 0 < _), h2 _ (List.getElem_mem _)⟩

end Verif.Samp
