import Verif.Lemmas.Golden
import Verif.Model.Sampling
import Verif.Props.SphereArea
/-! C166: the Fibonacci lattice fills the sphere evenly. -/
namespace Verif.Samp
open Verif Verif.Cubo Real

/-- The directions with height in `[a, b)` and azimuth in `[c, d)`. -/
def rect (a b c d : ℝ) : Set V := {v | ∃ z φ : ℝ, a ≤ z ∧ z < b ∧ c ≤ φ ∧ φ < d ∧ v = ⟨√(1 - z ^ 2) * cos φ, √(1 - z ^ 2) * sin φ, z⟩}

theorem half_pow : (5 : ℝ) ^ (0.5 : ℝ) = √5 := by rw [sqrt_eq_rpow]; norm_num

/-- Azimuths in an arc. -/
theorem arc_iff {c d : ℝ} (hd : d ≤ c + 2 * π) (t : ℝ) :
    (∃ φ : ℝ, c ≤ φ ∧ φ < d ∧ cos φ = cos t ∧ sin φ = sin t) ↔ Int.fract (t / (2 * π) - c / (2 * π)) < (d - c) / (2 * π) := by
  have hp : 0 < 2 * π := by have := pi_pos; linarith
  have e : t = c + 2 * π * Int.fract (t / (2 * π) - c / (2 * π)) + ⌊t / (2 * π) - c / (2 * π)⌋ * (2 * π) := by
    have := Int.fract_add_floor (t / (2 * π) - c / (2 * π))
    have h2 : 2 * π * (Int.fract (t / (2 * π) - c / (2 * π)) + ⌊t / (2 * π) - c / (2 * π)⌋) = t - c := by rw [this]; field_simp
    linarith
  have f0 := Int.fract_nonneg (t / (2 * π) - c / (2 * π))
  have f1 := Int.fract_lt_one (t / (2 * π) - c / (2 * π))
  obtain ⟨f, hf⟩ : ∃ f, f = Int.fract (t / (2 * π) - c / (2 * π)) := ⟨_, rfl⟩
  obtain ⟨k, hk⟩ : ∃ k : ℤ, k = ⌊t / (2 * π) - c / (2 * π)⌋ := ⟨_, rfl⟩
  rw [← hf] at e f0 f1 ⊢
  rw [← hk] at e
  have hc : cos t = cos (c + 2 * π * f) := by rw [e, cos_add_int_mul_two_pi]
  have hs : sin t = sin (c + 2 * π * f) := by rw [e, sin_add_int_mul_two_pi]
  rw [hc, hs, lt_div_iff₀ hp]
  constructor
  · rintro ⟨φ, h1, h2, h3, h4⟩
    have h5 : cos (φ - (c + 2 * π * f)) = 1 := by
      rw [cos_sub, h3, h4]; nlinarith [sin_sq_add_cos_sq (c + 2 * π * f)]
    have := (cos_eq_one_iff_of_lt_of_lt (x := φ - (c + 2 * π * f)) (by nlinarith) (by nlinarith)).mp h5
    linarith
  · intro h
    exact ⟨c + 2 * π * f, by nlinarith, by linarith, rfl, rfl⟩

/-- A point of the lattice lies in a rectangle. -/
theorem mem_rect {a b c d h t : ℝ} (h0 : -1 < h) (h1 : h < 1) (hd : d ≤ c + 2 * π) :
    thetaPhiToXyz t (arccos h) ∈ rect a b c d ↔ (a ≤ h ∧ h < b) ∧ Int.fract (t / (2 * π) - c / (2 * π)) < (d - c) / (2 * π) := by
  rw [← arc_iff hd]
  have hq : 0 < √(1 - h ^ 2) := sqrt_pos.mpr (by nlinarith)
  unfold thetaPhiToXyz rect
  rw [sin_arccos, cos_arccos h0.le h1.le]
  simp only [Set.mem_ofPred_eq, V.mk.injEq]
  constructor
  · rintro ⟨z, φ, hz1, hz2, hf1, hf2, e1, e2, e3⟩
    subst e3
    refine ⟨⟨hz1, hz2⟩, φ, hf1, hf2, ?_, ?_⟩
    · apply mul_right_cancel₀ hq.ne'; linarith
    · apply mul_right_cancel₀ hq.ne'; linarith
  · rintro ⟨⟨hz1, hz2⟩, φ, hf1, hf2, e1, e2⟩
    exact ⟨h, φ, hz1, hz2, hf1, hf2, by rw [e1]; ring, by rw [e2]; ring, rfl⟩

/-- How many indices below `n` are at most `x`. -/
noncomputable def upto (n : ℕ) (x : ℝ) : ℕ := min n (if x < 0 then 0 else ⌊x⌋₊ + 1)

theorem mem_upto (n : ℕ) (x : ℝ) (i : ℕ) : i < upto n x ↔ i < n ∧ (i : ℝ) ≤ x := by
  unfold upto
  rw [lt_min_iff]
  split
  · rename_i h
    constructor
    · rintro ⟨-, h'⟩; omega
    · rintro ⟨-, h'⟩
      have : (0 : ℝ) ≤ i := by positivity
      linarith
  · rename_i h
    rw [Nat.lt_add_one_iff, Nat.le_floor_iff (by linarith)]

theorem upto_near {n : ℕ} {s e : ℝ} (hn : 1 ≤ n) (h0 : 0 ≤ s) (h1 : s ≤ 1) (he : 0 < e) :
    |(upto n (s * ((n : ℝ) - 1 + 2 * e) - e) : ℝ) - n * s| ≤ e + 2 := by
  have hn' : (1 : ℝ) ≤ n := by exact_mod_cast hn
  have hns : n * s ≤ n := by nlinarith
  have hns0 : 0 ≤ n * s := by positivity
  obtain ⟨x, hx⟩ : ∃ x, x = s * ((n : ℝ) - 1 + 2 * e) - e := ⟨_, rfl⟩
  have hb1 : x ≤ n * s + e + 1 := by rw [hx]; nlinarith
  have hb2 : n * s - e - 1 ≤ x := by rw [hx]; nlinarith
  rw [← hx]
  unfold upto
  split
  · rename_i h
    simp only [Nat.min_zero, Nat.cast_zero, abs_le]
    constructor <;> linarith
  · rename_i h
    have f1 := Nat.floor_le (not_lt.mp h)
    have f2 := Nat.lt_floor_add_one x
    push_cast
    rw [abs_le]
    constructor
    · have : n * s - (e + 2) ≤ min (n : ℝ) (⌊x⌋₊ + 1) := le_min (by linarith) (by linarith)
      linarith
    · have : min (n : ℝ) (⌊x⌋₊ + 1) ≤ ⌊x⌋₊ + 1 := min_le_right _ _
      linarith

theorem cnt_shift (α c d β : ℝ) (i0 N : ℕ) :
    ((Finset.Ico i0 (i0 + N)).filter fun i : ℕ => c ≤ Int.fract (β + i * α) ∧ Int.fract (β + i * α) < d).card = Golden.cnt α c d (β + i0 * α) N := by
  unfold Golden.cnt
  simp only [Finset.card_filter]
  rw [Finset.sum_Ico_eq_sum_range]
  rw [Nat.add_sub_cancel_left]
  refine Finset.sum_congr rfl fun j _ => ?_
  push_cast
  rw [show β + (i0 + j) * α = β + i0 * α + j * α by ring]

open Classical in
theorem fib_count {n : ℕ} {e : ℝ} (he : 0 < e) {a b c d : ℝ} (ha : -1 ≤ a) (hab : a ≤ b) (hb : b ≤ 1) (hcd : c ≤ d) (hd : d ≤ c + 2 * π) :
    |((((List.range n).map fun i : ℕ => thetaPhiToXyz (2 * π * i / ((1 + (5 : ℝ) ^ (0.5 : ℝ)) / 2)) (arccos (fibArg e n i))).countP fun v => decide (v ∈ rect a b c d) : ℕ) : ℝ) -
      n * ((b - a) * (d - c) / (4 * π))| ≤ 25 * √n + (2 * e + 4) := by
  have hp := pi_pos
  rcases Nat.eq_zero_or_pos n with rfl | hn
  · simp
    linarith
  have hn' : (1 : ℝ) ≤ n := by exact_mod_cast hn
  have hD : 0 < (n : ℝ) - 1 + 2 * e := by linarith
  have hgold : ((1 + (5 : ℝ) ^ (0.5 : ℝ)) / 2) = goldenRatio := by rw [half_pow]
  obtain ⟨α, hα⟩ : ∃ α, α = 1 / goldenRatio := ⟨_, rfl⟩
  let i0 := upto n ((1 - b) / 2 * ((n : ℝ) - 1 + 2 * e) - e)
  let i1 := upto n ((1 - a) / 2 * ((n : ℝ) - 1 + 2 * e) - e)
  have h01 : i0 ≤ i1 := by
    by_contra h
    have h1 := (mem_upto n ((1 - b) / 2 * ((n : ℝ) - 1 + 2 * e) - e) i1).mp (not_le.mp h)
    have h2 : i1 < i1 := (mem_upto n ((1 - a) / 2 * ((n : ℝ) - 1 + 2 * e) - e) i1).mpr ⟨h1.1, h1.2.trans (by nlinarith)⟩
    exact absurd h2 (lt_irrefl _)
  have hmem : ∀ i : ℕ, i < n → (thetaPhiToXyz (2 * π * i / ((1 + (5 : ℝ) ^ (0.5 : ℝ)) / 2)) (arccos (fibArg e n i)) ∈ rect a b c d ↔
      i ∈ (Finset.Ico i0 i1).filter fun i : ℕ => 0 ≤ Int.fract (-(c / (2 * π)) + i * α) ∧ Int.fract (-(c / (2 * π)) + i * α) < (d - c) / (2 * π)) := by
    intro i hi
    have hi' : (i : ℝ) ≤ n - 1 := by
      have : (i : ℝ) + 1 ≤ n := by exact_mod_cast hi
      linarith
    have hi0 : (0 : ℝ) ≤ i := by positivity
    have g0 : -1 < fibArg e n i := by
      unfold fibArg
      have : 2 * ((i : ℝ) + e) / (n - 1 + 2 * e) < 2 := by rw [div_lt_iff₀ hD]; linarith
      linarith
    have g1 : fibArg e n i < 1 := by
      unfold fibArg
      have : 0 < 2 * ((i : ℝ) + e) / (n - 1 + 2 * e) := by positivity
      linarith
    rw [mem_rect g0 g1 hd, hgold]
    have et : 2 * π * i / goldenRatio / (2 * π) - c / (2 * π) = -(c / (2 * π)) + i * α := by
      rw [hα]; field_simp; ring
    rw [et]
    simp only [Finset.mem_filter, Finset.mem_Ico, Int.fract_nonneg, true_and]
    have k1 : a ≤ fibArg e n i ↔ i < i1 := by
      rw [mem_upto]
      simp only [hi, true_and]
      unfold fibArg
      rw [le_sub_iff_add_le, ← le_sub_iff_add_le', div_le_iff₀ hD]
      constructor <;> intro h <;> linarith
    have k2 : fibArg e n i < b ↔ i0 ≤ i := by
      rw [← not_lt (a := i), mem_upto]
      simp only [hi, true_and, not_le]
      unfold fibArg
      rw [sub_lt_comm, lt_div_iff₀ hD]
      constructor <;> intro h <;> linarith
    rw [k1, k2, and_comm (a := i < i1)]
  have hcount : ((List.range n).map fun i : ℕ => thetaPhiToXyz (2 * π * i / ((1 + (5 : ℝ) ^ (0.5 : ℝ)) / 2)) (arccos (fibArg e n i))).countP (fun v => decide (v ∈ rect a b c d)) =
      ((Finset.Ico i0 i1).filter fun i : ℕ => 0 ≤ Int.fract (-(c / (2 * π)) + i * α) ∧ Int.fract (-(c / (2 * π)) + i * α) < (d - c) / (2 * π)).card := by
    rw [List.countP_map, List.countP_eq_length_filter, ← List.toFinset_card_of_nodup (List.Nodup.filter _ List.nodup_range)]
    congr 1
    ext i
    rw [List.mem_toFinset, List.mem_filter, List.mem_range]
    constructor
    · rintro ⟨hi, h⟩
      exact (hmem i hi).mp (by simpa using h)
    · intro h
      have hi : i < n := by
        have h1 := (Finset.mem_Ico.mp (Finset.mem_filter.mp h).1).2
        exact ((mem_upto n _ i).mp h1).1
      exact ⟨hi, by simpa using (hmem i hi).mpr h⟩
  obtain ⟨N, hN⟩ : ∃ N, i1 = i0 + N := Nat.exists_eq_add_of_le h01
  have hi1n : i1 ≤ n := by
    simp only [i1, upto]; exact min_le_left _ _
  have hNn : N ≤ n := by omega
  rw [hcount, hN, cnt_shift, hα]
  have hl0 : 0 ≤ (d - c) / (2 * π) := div_nonneg (by linarith) (by linarith)
  have hl1 : (d - c) / (2 * π) ≤ 1 := by rw [div_le_one (by linarith)]; linarith
  have hg := abs_le.mp (Golden.golden_count le_rfl hl0 hl1 n N hNn (-(c / (2 * π)) + i0 * (1 / goldenRatio)))
  have u0 := abs_le.mp (upto_near (n := n) (s := (1 - b) / 2) hn (by linarith) (by linarith) he)
  have u1 := abs_le.mp (upto_near (n := n) (s := (1 - a) / 2) hn (by linarith) (by linarith) he)
  have hNr : (i1 : ℝ) = i0 + N := by exact_mod_cast hN
  change _ ≤ (i0 : ℝ) - _ ∧ (i0 : ℝ) - _ ≤ _ at u0
  change _ ≤ (i1 : ℝ) - _ ∧ (i1 : ℝ) - _ ≤ _ at u1
  have hdiff : |((N : ℝ) - n * ((b - a) / 2)) * ((d - c) / (2 * π))| ≤ 2 * e + 4 := by
    rw [abs_mul, abs_of_nonneg hl0]
    have : |(N : ℝ) - n * ((b - a) / 2)| ≤ 2 * e + 4 := by
      rw [abs_le]; constructor <;> linarith
    calc _ ≤ (2 * e + 4) * 1 := mul_le_mul this hl1 hl0 (by linarith)
      _ = _ := mul_one _
  have hd' := abs_le.mp hdiff
  have hsplit : (n : ℝ) * ((b - a) * (d - c) / (4 * π)) = n * ((b - a) / 2) * ((d - c) / (2 * π)) := by field_simp; ring
  rw [hsplit, abs_le]
  rw [sub_zero] at hg
  constructor <;> linarith

open Classical in
/-- **C166**: the number of points of `s2_fibonacci` in any rectangle of heights and azimuths differs from the share of its area by at most
`25 √n + 432`. -/
theorem C166_count (mode : String) (n : ℕ) (pts : List V) (hp : s2Fibonacci mode n = some pts) (a b c d : ℝ) (ha : -1 ≤ a) (hab : a ≤ b) (hb : b ≤ 1)
    (hcd : c ≤ d) (hd : d ≤ c + 2 * π) :
    |((pts.countP fun v => decide (v ∈ rect a b c d) : ℕ) : ℝ) - n * ((b - a) * (d - c) / (4 * π))| ≤ 25 * √n + 432 := by
  unfold s2Fibonacci at hp
  rw [Option.map_eq_some_iff] at hp
  obtain ⟨e, he, rfl⟩ := hp
  have hb2 : 0 < e ∧ e ≤ 214 := by
    unfold fibEps at he
    split_ifs at he <;> simp only [Option.some.injEq] at he <;> subst he <;> norm_num
  exact (fib_count hb2.1 ha hab hb hcd hd).trans (by linarith)

open Classical in
/-- **C166**: the same for the default mode, with the smaller constant. -/
theorem C166_avg (n : ℕ) (pts : List V) (hp : s2Fibonacci "avg" n = some pts) (a b c d : ℝ) (ha : -1 ≤ a) (hab : a ≤ b) (hb : b ≤ 1)
    (hcd : c ≤ d) (hd : d ≤ c + 2 * π) :
    |((pts.countP fun v => decide (v ∈ rect a b c d) : ℕ) : ℝ) - n * ((b - a) * (d - c) / (4 * π))| ≤ 25 * √n + 5 := by
  unfold s2Fibonacci at hp
  rw [Option.map_eq_some_iff] at hp
  obtain ⟨e, he, rfl⟩ := hp
  simp only [fibEps, if_true, Option.some.injEq] at he
  subst he
  exact (fib_count (by norm_num) ha hab hb hcd hd).trans (by norm_num)

open Classical in
/-- **C166**: the share of the points of `s2_fibonacci` in a rectangle tends to the share of its area on the sphere. -/
theorem C166_limit (mode : String) (hm : mode = "avg" ∨ mode = "max") (a b c d : ℝ) (ha : -1 ≤ a) (hab : a ≤ b) (hb : b ≤ 1)
    (hcd : c ≤ d) (hd : d ≤ c + 2 * π) :
    Filter.Tendsto (fun n : ℕ => ((((s2Fibonacci mode n).getD []).countP fun v => decide (v ∈ rect a b c d) : ℕ) : ℝ) / n) Filter.atTop
      (nhds ((b - a) * (d - c) / (4 * π))) := by
  have hz : Filter.Tendsto (fun n : ℕ => 25 / √(n : ℝ) + 432 / (n : ℝ)) Filter.atTop (nhds 0) := by
    have h1 : Filter.Tendsto (fun n : ℕ => √(n : ℝ)) Filter.atTop Filter.atTop := Real.tendsto_sqrt_atTop.comp tendsto_natCast_atTop_atTop
    have h2 := (h1.const_div_atTop (25 : ℝ)).add (tendsto_const_div_atTop_nhds_zero_nat (432 : ℝ))
    rwa [zero_add] at h2
  rw [tendsto_iff_norm_sub_tendsto_zero]
  refine squeeze_zero' (Filter.Eventually.of_forall fun n => norm_nonneg _) ?_ hz
  filter_upwards [Filter.eventually_gt_atTop 0] with n hn
  have hn' : (0 : ℝ) < n := by exact_mod_cast hn
  obtain ⟨e, he⟩ : ∃ e, fibEps mode n = some e := by
    unfold fibEps
    rcases hm with rfl | rfl
    · exact ⟨0.36, by simp⟩
    · exact ⟨_, by simp; rfl⟩
  have hs : s2Fibonacci mode n = some (((s2Fibonacci mode n).getD [])) := by
    unfold s2Fibonacci; rw [he]; rfl
  have h := C166_count mode n _ hs a b c d ha hab hb hcd hd
  have hs0 : 0 < √(n : ℝ) := sqrt_pos.mpr hn'
  rw [norm_eq_abs]
  calc _ = |((((s2Fibonacci mode n).getD []).countP fun v => decide (v ∈ rect a b c d) : ℕ) : ℝ) - n * ((b - a) * (d - c) / (4 * π))| / n := by
        rw [← abs_of_pos hn', ← abs_div, abs_of_pos hn']
        congr 1
        field_simp
    _ ≤ (25 * √n + 432) / n := by gcongr
    _ = _ := by
        rw [add_div]
        congr 1
        rw [div_eq_div_iff hn'.ne' hs0.ne', mul_assoc, mul_self_sqrt hn'.le]

/-! ### Non-vacuity -/

open Classical in
/-- One octant of ten million points. -/
example (pts : List V) (h : s2Fibonacci "avg" 10000000 = some pts) :
    |((pts.countP fun v => decide (v ∈ rect 0 1 0 (π / 2)) : ℕ) : ℝ) - 1250000| ≤ 80000 := by
  have hp := pi_pos
  have := C166_avg _ pts h 0 1 0 (π / 2) (by norm_num) (by norm_num) (by norm_num) (by linarith) (by linarith)
  have e : ((10000000 : ℕ) : ℝ) * ((1 - 0) * (π / 2 - 0) / (4 * π)) = 1250000 := by push_cast; field_simp; ring
  rw [e] at this
  have hs : √((10000000 : ℕ) : ℝ) ≤ 3163 := by
    rw [sqrt_le_left (by norm_num)]; norm_num
  calc _ ≤ 25 * √((10000000 : ℕ) : ℝ) + 5 := this
    _ ≤ 25 * 3163 + 5 := by gcongr
    _ ≤ 80000 := by norm_num

end Verif.Samp
