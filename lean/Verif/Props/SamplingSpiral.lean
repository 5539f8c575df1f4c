import Verif.Props.Sampling
import Mathlib.NumberTheory.Real.GoldenRatio
import Mathlib.Topology.Order.IntermediateValue
import Mathlib.Topology.Algebra.Polynomial
/-! Property C148: the points of the two Fibonacci spirals (s2_and_so3/sampling.py). -/
namespace Verif.Samp
open Verif Verif.Spec Real

/-- The offset of the spiral prescribed for `n` points: 0.36 for even spacing on average, and a table for the largest minimal spacing. -/
def offsetOf (mode : String) (n : ℕ) (eps : ℝ) : Prop :=
  (mode = "avg" ∧ eps = 36 / 100) ∨
  (mode = "max" ∧ (n < 24 ∧ eps = 33 / 100 ∨ (24 ≤ n ∧ n < 177) ∧ eps = 133 / 100 ∨ (177 ≤ n ∧ n < 890) ∧ eps = 333 / 100 ∨
    (890 ≤ n ∧ n < 11000) ∧ eps = 10 ∨ (11000 ≤ n ∧ n < 400000) ∧ eps = 27 ∨ (400000 ≤ n ∧ n < 600000) ∧ eps = 75 ∨ 600000 ≤ n ∧ eps = 214))

lemma fibEps_offset {mode : String} {n : ℕ} {eps : ℝ} (h : fibEps mode n = some eps) : offsetOf mode n eps := by
  unfold fibEps at h
  split_ifs at h with h1 h2 h3 h4 h5 h6 h7 h8 <;> cases h
  · exact Or.inl ⟨h1, by norm_num⟩
  all_goals
    refine Or.inr ⟨h2, ?_⟩
    first
    | exact Or.inl ⟨by omega, by norm_num⟩
    | exact Or.inr (Or.inl ⟨by omega, by norm_num⟩)
    | exact Or.inr (Or.inr (Or.inl ⟨by omega, by norm_num⟩))
    | exact Or.inr (Or.inr (Or.inr (Or.inl ⟨by omega, by norm_num⟩)))
    | exact Or.inr (Or.inr (Or.inr (Or.inr (Or.inl ⟨by omega, by norm_num⟩))))
    | exact Or.inr (Or.inr (Or.inr (Or.inr (Or.inr (Or.inl ⟨by omega, by norm_num⟩)))))
    | exact Or.inr (Or.inr (Or.inr (Or.inr (Or.inr (Or.inr ⟨by omega, by norm_num⟩)))))

lemma offset_pos {mode : String} {n : ℕ} {eps : ℝ} (h : offsetOf mode n eps) : 0 < eps := by
  rcases h with ⟨_, rfl⟩ | ⟨_, h⟩
  · norm_num
  · rcases h with ⟨_, rfl⟩ | ⟨_, rfl⟩ | ⟨_, rfl⟩ | ⟨_, rfl⟩ | ⟨_, rfl⟩ | ⟨_, rfl⟩ | ⟨_, rfl⟩ <;> norm_num

/-- C148: the points of `s2_fibonacci(n, mode)`.  Point `i` has height `z = 1 - 2 (i + ε) / (n - 1 + 2 ε)` with the prescribed offset `ε` and azimuth
`2π i / φ` with the golden ratio `φ`; the heights decrease strictly, so the points are distinct, and they are symmetric about the equator. -/
theorem C148_sphere (mode : String) (n : ℕ) (l : List V) (h : s2Fibonacci mode n = some l) :
    l.length = n ∧ ∃ eps, offsetOf mode n eps ∧
      (∀ i < n, ∃ z, z = 1 - 2 * (i + eps) / (n - 1 + 2 * eps) ∧
        l[i]? = some ⟨√(1 - z ^ 2) * cos (2 * π * i / goldenRatio), √(1 - z ^ 2) * sin (2 * π * i / goldenRatio), z⟩) ∧
      l.Pairwise (fun p q => q.z < p.z) ∧
      ∀ i < n, ∀ p q, l[i]? = some p → l[n - 1 - i]? = some q → q.z = -p.z := by
  unfold s2Fibonacci at h
  rw [Option.map_eq_some_iff] at h
  obtain ⟨eps, he, rfl⟩ := h
  have ho := fibEps_offset he
  have hpos := offset_pos ho
  have hphi : ((1 + (5 : ℝ) ^ (0.5 : ℝ)) / 2) = goldenRatio := by
    rw [show (0.5 : ℝ) = 1 / 2 by norm_num, ← Real.sqrt_eq_rpow, goldenRatio]
  rw [hphi]
  have hin : ∀ i < n, -1 < fibArg eps n i ∧ fibArg eps n i < 1 := by
    intro i hi
    have hi' : (i:ℝ) + 1 ≤ n := by exact_mod_cast hi
    have hi0 : (0:ℝ) ≤ i := by positivity
    have hd : 0 < (n:ℝ) - 1 + 2 * eps := by linarith
    unfold fibArg
    constructor
    · have : 2 * ((i:ℝ) + eps) / ((n:ℝ) - 1 + 2 * eps) < 2 := by rw [div_lt_iff₀ hd]; linarith
      linarith
    · have : 0 < 2 * ((i:ℝ) + eps) / ((n:ℝ) - 1 + 2 * eps) := by positivity
      linarith
  have hpt : ∀ i < n, thetaPhiToXyz (2 * π * i / goldenRatio) (arccos (fibArg eps n i)) =
      ⟨√(1 - fibArg eps n i ^ 2) * cos (2 * π * i / goldenRatio), √(1 - fibArg eps n i ^ 2) * sin (2 * π * i / goldenRatio), fibArg eps n i⟩ := by
    intro i hi
    unfold thetaPhiToXyz
    rw [sin_arccos, cos_arccos (hin i hi).1.le (hin i hi).2.le, mul_comm (cos _), mul_comm (sin _)]
  refine ⟨by simp, eps, ho, ?_, ?_, ?_⟩
  · intro i hi
    refine ⟨fibArg eps n i, rfl, ?_⟩
    rw [List.getElem?_map, List.getElem?_range hi, Option.map_some, hpt i hi]
  · rw [List.pairwise_map]
    apply List.Pairwise.imp_of_mem (R := (· < ·)) _ List.pairwise_lt_range
    intro i j hi hj hij
    rw [List.mem_range] at hi hj
    rw [hpt i hi, hpt j hj]
    simp only [fibArg]
    have hd : 0 < (n:ℝ) - 1 + 2 * eps := by
      have : (j:ℝ) + 1 ≤ n := by exact_mod_cast hj
      have : (0:ℝ) ≤ j := by positivity
      linarith
    have : (i:ℝ) < j := by exact_mod_cast hij
    have := div_lt_div_of_pos_right (show 2 * ((i:ℝ) + eps) < 2 * ((j:ℝ) + eps) by linarith) hd
    linarith
  · intro i hi p q hp hq
    have hj : n - 1 - i < n := by omega
    rw [List.getElem?_map, List.getElem?_range hi, Option.map_some, hpt i hi, Option.some.injEq] at hp
    rw [List.getElem?_map, List.getElem?_range hj, Option.map_some, hpt _ hj, Option.some.injEq] at hq
    subst hp; subst hq
    simp only [fibArg]
    have hd : 0 < (n:ℝ) - 1 + 2 * eps := by
      have : (i:ℝ) + 1 ≤ n := by exact_mod_cast hi
      have : (0:ℝ) ≤ i := by positivity
      linarith
    have ec : ((n - 1 - i : ℕ) : ℝ) = n - 1 - i := by
      rw [Nat.sub_sub, Nat.cast_sub (by omega)]; push_cast; ring
    rw [ec]
    field_simp
    ring

/-- C148: the points of `so3_fibonacci(n)`, for every `n`: with `s = i + 1/2`, the quaternion number `i` has the pair of radii `√(s/n)`, `√(1 - s/n)` and the
pair of angles `2π s/√2`, `2π s/ψ`, where `ψ` agrees to 23 decimals with the positive solution of `x⁴ = x + 4`, which is unique. -/
theorem C148_rotations (n : ℕ) : (so3Fibonacci n).length = n ∧ ∃ psi root : ℝ, (0 < root ∧ root ^ 4 = root + 4) ∧
    (∀ x : ℝ, 0 < x → x ^ 4 = x + 4 → x = root) ∧ |psi - root| < 1 / 10 ^ 23 ∧
    ∀ i < n, ∃ s : ℝ, s = i + 1 / 2 ∧ (so3Fibonacci n)[i]? = some
      ⟨√(s / n) * sin (2 * π * s / √2), √(s / n) * cos (2 * π * s / √2), √(1 - s / n) * sin (2 * π * s / psi), √(1 - s / n) * cos (2 * π * s / psi)⟩ := by
  have hc : ContinuousOn (fun x : ℝ => x ^ 4 - x - 4) (Set.Icc (1.53375116875520428811804) (1.533751168755204288118042)) := by fun_prop
  have hmem : (0 : ℝ) ∈ Set.Icc ((1.53375116875520428811804 : ℝ) ^ 4 - 1.53375116875520428811804 - 4)
      ((1.533751168755204288118042 : ℝ) ^ 4 - 1.533751168755204288118042 - 4) := by constructor <;> norm_num
  obtain ⟨r, ⟨hr1, hr2⟩, hr⟩ := intermediate_value_Icc (by norm_num) hc hmem
  have hr : r ^ 4 - r - 4 = 0 := hr
  refine ⟨by simp [so3Fibonacci], 1.533751168755204288118041, r, ⟨by linarith, by linarith⟩, ?_, ?_, ?_⟩
  · intro x hx hx4
    have h1 : (x - r) * ((x + r) * (x ^ 2 + r ^ 2) - 1) = 0 := by ring_nf; linarith
    rcases mul_eq_zero.mp h1 with h | h
    · linarith
    · exfalso
      have hr0 : (1.5 : ℝ) < r := by linarith
      have : (1.5 : ℝ) ^ 2 < r ^ 2 := by gcongr
      have h5 : (1.5 : ℝ) * 1.5 ^ 2 ≤ (x + r) * (x ^ 2 + r ^ 2) := by
        apply mul_le_mul <;> first | positivity | linarith [sq_nonneg x]
      norm_num at h5
      linarith
  · rw [abs_lt]; constructor <;> norm_num <;> linarith
  · intro i hi
    refine ⟨i + 1 / 2, rfl, ?_⟩
    unfold so3Fibonacci
    rw [List.getElem?_map, List.getElem?_range hi, Option.map_some]
    simp only
    rw [show (0.5 : ℝ) = 1 / 2 by norm_num, ← Real.sqrt_eq_rpow]

/-- non-vacuity -/
example : ∃ l, s2Fibonacci "max" 30 = some l ∧ offsetOf "max" 30 (133 / 100) :=
  ⟨_, by unfold s2Fibonacci fibEps; simp; rfl, Or.inr ⟨rfl, Or.inr (Or.inl ⟨by norm_num, rfl⟩)⟩⟩

end Verif.Samp
