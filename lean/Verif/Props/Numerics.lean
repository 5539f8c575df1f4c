import Verif.Model.Numerics
import Mathlib.Analysis.SpecialFunctions.Integrals.Basic
import Mathlib.Tactic.FieldSimp
import Mathlib.Tactic.LinearCombination
import Mathlib.Tactic.Linarith
import Mathlib.Tactic.Positivity
/-!
C59 (Simpson's rule) and C60 (interpolation).
-/
namespace Verif.Numerics

lemma at'_map (f : ℝ → ℝ) (x : List ℝ) {i : ℕ} (h : i < x.length) : at' (x.map f) i = f (at' x i) := by
  simp [at', List.getD_eq_getElem?_getD, h]

lemma at'_lt {x : List ℝ} (hx : x.Pairwise (· < ·)) {i j : ℕ} (hij : i < j) (hj : j < x.length) : at' x i < at' x j := by
  have := List.pairwise_iff_getElem.1 hx i j (by omega) hj hij
  simpa [at', List.getD_eq_getElem?_getD, hj, (by omega : i < x.length)] using this

/-! ### C59 -/

/-- The antiderivative of `a + b t + c t²`. -/
noncomputable def prim (a b c t : ℝ) : ℝ := a * t + b * t ^ 2 / 2 + c * t ^ 3 / 3

lemma integral_quad (a b c u v : ℝ) : ∫ t in u..v, (a + b * t + c * t ^ 2) = prim a b c v - prim a b c u := by
  rw [intervalIntegral.integral_add, intervalIntegral.integral_add]
  · rw [intervalIntegral.integral_const, intervalIntegral.integral_const_mul, intervalIntegral.integral_const_mul,
      integral_pow, integral_id, smul_eq_mul]
    unfold prim; push_cast; ring
  all_goals exact Continuous.intervalIntegrable (by fun_prop) _ _

lemma pair_exact (a b c : ℝ) {x : List ℝ} (hx : x.Pairwise (· < ·)) {j : ℕ} (hj : 2 * j + 2 < x.length) :
    simpsonPair (x.map fun t => a + b * t + c * t ^ 2) x j
      = prim a b c (at' x (2 * j + 2)) - prim a b c (at' x (2 * j)) := by
  have h1 := at'_lt hx (show 2 * j < 2 * j + 1 by omega) (by omega)
  have h2 := at'_lt hx (show 2 * j + 1 < 2 * j + 2 by omega) (by omega)
  unfold simpsonPair gap
  simp only
  rw [at'_map _ _ (show 2 * j < _ by omega), at'_map _ _ (show 2 * j + 1 < _ by omega), at'_map _ _ hj]
  rw [show 2 * j + 1 + 1 = 2 * j + 2 by ring]
  generalize at' x (2 * j) = u at *
  generalize at' x (2 * j + 1) = v at *
  generalize at' x (2 * j + 2) = w at *
  have e1 : v - u ≠ 0 := by linarith [h1] |> fun h : v - u > 0 => h.ne'
  have e2 : w - v ≠ 0 := by linarith [h2] |> fun h : w - v > 0 => h.ne'
  unfold prim
  field_simp
  ring

lemma pairs_exact (a b c : ℝ) {x : List ℝ} (hx : x.Pairwise (· < ·)) (m : ℕ) (hm : 2 * m < x.length) :
    ∑ j ∈ Finset.range m, simpsonPair (x.map fun t => a + b * t + c * t ^ 2) x j
      = prim a b c (at' x (2 * m)) - prim a b c (at' x 0) := by
  induction m with
  | zero => simp
  | succ m ih =>
    rw [Finset.sum_range_succ, ih (by omega), pair_exact a b c hx (by omega)]
    rw [show 2 * (m + 1) = 2 * m + 2 by ring]
    ring

/-- **C59**.  For every strictly increasing grid `x` with at least one point and not exactly two, and every quadratic
`f(t) = a + b t + c t²`, `simpson_composite(f(x), x)` returns the integral of `f` from the first to the last grid point. -/
theorem C59_quadratics (a b c : ℝ) (x : List ℝ) (hx : x.Pairwise (· < ·)) (hne : x ≠ []) (h2 : x.length ≠ 2) :
    simpson (x.map fun t => a + b * t + c * t ^ 2) x
      = .ok (∫ t in (x.head hne)..(x.getLast hne), (a + b * t + c * t ^ 2)) := by
  have hpos : 0 < x.length := List.length_pos_iff.2 hne
  have hh : x.head hne = at' x 0 := by
    rw [List.head_eq_getElem]; simp [at', List.getD_eq_getElem?_getD, hpos]
  have hl : x.getLast hne = at' x (x.length - 1) := by
    rw [List.getLast_eq_getElem]; simp [at', List.getD_eq_getElem?_getD, hpos]
  rw [integral_quad, hh, hl]
  unfold simpson
  rw [if_neg (by simp)]
  simp only
  by_cases ho : (x.length - 1) % 2 = 1
  · rw [if_pos ho, if_neg (by omega), pairs_exact a b c hx _ (by omega)]
    obtain ⟨k, hk⟩ : ∃ k, x.length = 2 * k + 4 := ⟨(x.length - 4) / 2, by omega⟩
    rw [hk, show 2 * k + 4 - 1 = 2 * k + 3 by omega, show (2 * k + 3) / 2 = k + 1 by omega,
      show 2 * k + 3 - 1 = 2 * k + 2 by omega, show 2 * k + 3 - 2 = 2 * k + 1 by omega, show 2 * (k + 1) = 2 * k + 2 by ring]
    have g1 := at'_lt hx (show 2 * k + 1 < 2 * k + 2 by omega) (by omega)
    have g2 := at'_lt hx (show 2 * k + 2 < 2 * k + 3 by omega) (by omega)
    unfold gap
    rw [at'_map _ _ (show 2 * k + 1 < _ by omega), at'_map _ _ (show 2 * k + 2 < _ by omega),
      at'_map _ _ (show 2 * k + 3 < _ by omega)]
    rw [show 2 * k + 2 + 1 = 2 * k + 3 by ring, show 2 * k + 1 + 1 = 2 * k + 2 by ring]
    congr 1
    generalize at' x (2 * k + 1) = u at *
    generalize at' x (2 * k + 2) = v at *
    generalize at' x (2 * k + 3) = w at *
    have e1 : v - u ≠ 0 := by linarith [g1] |> fun h : v - u > 0 => h.ne'
    have e2 : w - v ≠ 0 := by linarith [g2] |> fun h : w - v > 0 => h.ne'
    have e3 : v - u + (w - v) ≠ 0 := by linarith |> fun h : v - u + (w - v) > 0 => h.ne'
    unfold prim
    field_simp
    ring
  · rw [if_neg ho, pairs_exact a b c hx _ (by omega)]
    rw [show 2 * ((x.length - 1) / 2) = x.length - 1 by omega]

example : ([0, 1, 3, 4] : List ℝ).Pairwise (· < ·) ∧ ([0, 1, 3, 4] : List ℝ).length ≠ 2 := by
  refine ⟨by norm_num, by simp⟩

/-- On an equidistant grid with an even number of intervals cubics are integrated exactly as well. -/
theorem C59_cubics (d u h : ℝ) (hh : 0 < h) (m : ℕ) :
    simpson (((List.range (2 * m + 1)).map fun i : ℕ => u + i * h).map fun t => d * t ^ 3)
        ((List.range (2 * m + 1)).map fun i : ℕ => u + i * h)
      = .ok (∫ t in u..(u + 2 * m * h), d * t ^ 3) := by
  set x := (List.range (2 * m + 1)).map fun i : ℕ => u + i * h with hx
  have hlen : x.length = 2 * m + 1 := by simp [hx]
  have hat : ∀ i, i < 2 * m + 1 → at' x i = u + i * h := by
    intro i hi
    simp [hx, at', List.getD_eq_getElem?_getD, hi]
  have key : ∀ k ≤ m, ∑ j ∈ Finset.range k, simpsonPair (x.map fun t => d * t ^ 3) x j
      = d * ((u + 2 * k * h) ^ 4 - u ^ 4) / 4 := by
    intro k hk
    induction k with
    | zero => simp
    | succ k ih =>
      rw [Finset.sum_range_succ, ih (by omega)]
      unfold simpsonPair gap
      simp only
      rw [at'_map _ _ (show 2 * k < _ by omega), at'_map _ _ (show 2 * k + 1 < _ by omega),
        at'_map _ _ (show 2 * k + 2 < _ by omega)]
      rw [show 2 * k + 1 + 1 = 2 * k + 2 by ring, hat _ (by omega), hat _ (by omega), hat _ (by omega)]
      push_cast
      have e1 : u + (2 * (k:ℝ) + 1) * h - (u + 2 * k * h) = h := by ring
      have e2 : u + (2 * (k:ℝ) + 2) * h - (u + (2 * k + 1) * h) = h := by ring
      rw [e1, e2, div_self hh.ne']
      have e3 : (h + h) ^ 2 / (h * h) = 4 := by field_simp; ring
      rw [e3]
      ring
  unfold simpson
  rw [if_neg (by simp)]
  simp only [hlen]
  rw [if_neg (by omega), show (2 * m + 1 - 1) / 2 = m by omega, key m le_rfl]
  congr 1
  rw [intervalIntegral.integral_const_mul, integral_pow]
  push_cast; ring

example : (0 : ℝ) < 1 / 2 := by norm_num

/-- The domain of C59 is sharp: two grid points raise, and tensors of different length raise. -/
theorem C59_domain (y x : List ℝ) : (x.length = 2 → y.length = 2 → simpson y x = .error .indexError) ∧
    (y.length ≠ x.length → simpson y x = .error .valueError) := by
  constructor
  · intro h1 h2
    unfold simpson
    simp [h1, h2]
  · intro h
    unfold simpson
    rw [if_pos h]

/-! ### C60 -/

lemma countP_prefix {xp : List ℝ} (x : ℝ) {k : ℕ} (hk : k ≤ xp.length)
    (h1 : ∀ i < k, at' xp i < x) (h2 : ∀ i, k ≤ i → i < xp.length → x ≤ at' xp i) : searchsorted xp x = k := by
  unfold searchsorted
  conv_lhs => rw [← List.take_append_drop k xp]
  rw [List.countP_append]
  have e1 : (xp.take k).countP (fun t => decide (t < x)) = k := by
    rw [List.countP_eq_length.2, List.length_take, min_eq_left hk]
    intro a ha
    obtain ⟨i, hi, rfl⟩ := List.mem_iff_getElem.1 ha
    rw [List.length_take] at hi
    have := h1 i (by omega)
    simp only [List.getElem_take, decide_eq_true_eq]
    simpa [at', List.getD_eq_getElem?_getD, (by omega : i < xp.length)] using this
  have e2 : (xp.drop k).countP (fun t => decide (t < x)) = 0 := by
    rw [List.countP_eq_zero]
    intro a ha
    obtain ⟨i, hi, rfl⟩ := List.mem_iff_getElem.1 ha
    rw [List.length_drop] at hi
    have := h2 (k + i) (by omega) (by omega)
    simp only [List.getElem_drop, decide_eq_true_eq, not_lt]
    simpa [at', List.getD_eq_getElem?_getD, (by omega : k + i < xp.length)] using this
  omega

/-- The straight line through two points. -/
noncomputable def lineThrough (x0 y0 x1 y1 x : ℝ) : ℝ := y0 + (y1 - y0) * (x - x0) / (x1 - x0)

lemma seg_line (xp fp : List ℝ) (i : ℕ) (x : ℝ) (h : at' xp i < at' xp (i + 1)) :
    slope xp fp i * x + offset xp fp i = lineThrough (at' xp i) (at' fp i) (at' xp (i + 1)) (at' fp (i + 1)) x := by
  unfold slope offset slope lineThrough
  have : at' xp (i + 1) - at' xp i ≠ 0 := by linarith |> fun h : at' xp (i + 1) - at' xp i > 0 => h.ne'
  field_simp
  ring

/-- **C60**, linear.  On a strictly increasing grid, for a query in the segment between neighbouring sample points both the
"const" and the linear mode of `_interp` return the value of the straight line through the two samples. -/
theorem C60_linear_inside_partial (xp fp : List ℝ) (hx : xp.Pairwise (· < ·)) (k : ℕ)
    (hk : k + 1 < xp.length) (x : ℝ) (h1 : at' xp k < x) (h2 : x ≤ at' xp (k + 1)) (mode : String) (hm : mode ≠ "error") :
    interp x xp fp mode = .ok (lineThrough (at' xp k) (at' fp k) (at' xp (k + 1)) (at' fp (k + 1)) x) := by
  have hs : searchsorted xp x = k + 1 := by
    apply countP_prefix x (by omega)
    · intro i hi
      rcases Nat.lt_or_ge i k with h | h
      · exact (at'_lt hx h (by omega)).trans h1
      · rwa [show i = k by omega]
    · intro i hi hi'
      rcases Nat.lt_or_ge (k + 1) i with h | h
      · exact h2.trans (at'_lt hx h hi').le
      · rwa [show i = k + 1 by omega]
  have hlt := at'_lt hx (show k < k + 1 by omega) hk
  unfold interp
  simp only [hs]
  rw [if_neg hm]
  by_cases hc : mode = "const"
  · rw [if_pos hc, if_neg (by omega), if_neg (by omega), if_neg (by omega), if_neg (by omega), Nat.add_sub_cancel,
      seg_line xp fp k x hlt]
  · rw [if_neg hc, Nat.add_sub_cancel, min_eq_left (by omega), seg_line xp fp k x hlt]

/-- **C60**, clamping.  In "const" mode queries at or below the first sample point return the first sample and queries above the
last one return the last sample. -/
theorem C60_linear_clamp (xp fp : List ℝ) (hx : xp.Pairwise (· < ·)) (h0 : 0 < xp.length) (x : ℝ) :
    (x ≤ at' xp 0 → interp x xp fp "const" = .ok (at' fp 0)) ∧
    (at' xp (xp.length - 1) < x → interp x xp fp "const" = .ok (at' fp (xp.length - 1))) := by
  constructor
  · intro h
    have hs : searchsorted xp x = 0 := by
      apply countP_prefix x (by omega) (by intro i hi; omega)
      intro i _ hi
      rcases Nat.eq_zero_or_pos i with rfl | hp
      · exact h
      · exact h.trans (at'_lt hx hp hi).le
    unfold interp
    simp [hs]
  · intro h
    have hs : searchsorted xp x = xp.length := by
      apply countP_prefix x le_rfl _ (by intro i h1 h2; omega)
      intro i hi
      rcases Nat.lt_or_ge i (xp.length - 1) with h' | h'
      · exact (at'_lt hx h' (by omega)).trans h
      · rwa [show i = xp.length - 1 by omega]
    unfold interp
    simp only [hs]
    have : xp.length ≠ 0 := by omega
    simp [this]

/-- **C60**, samples and straight lines: both modes reproduce the samples (const mode: all of them; linear mode: likewise), and
data on a straight line are reproduced at every query inside the range. -/
theorem C60_linear_samples_partial (xp fp : List ℝ) (hx : xp.Pairwise (· < ·)) (h2 : 2 ≤ xp.length) (i : ℕ)
    (hi : i < xp.length) (mode : String) (hm : mode ≠ "error") :
    interp (at' xp i) xp fp mode = .ok (at' fp i) := by
  rcases Nat.eq_zero_or_pos i with rfl | hp
  · by_cases hc : mode = "const"
    · subst hc
      exact (C60_linear_clamp xp fp hx (by omega) _).1 le_rfl
    · have hs : searchsorted xp (at' xp 0) = 0 := by
        apply countP_prefix _ (by omega) (by intro i hi; omega)
        intro i _ hi
        rcases Nat.eq_zero_or_pos i with rfl | hp
        · exact le_rfl
        · exact (at'_lt hx hp hi).le
      unfold interp
      simp only [hs]
      rw [if_neg hm, if_neg hc, show min (0 - 1) (xp.length - 2) = 0 by omega, seg_line xp fp 0 _ (at'_lt hx (by omega) (by omega))]
      unfold lineThrough; simp
  · obtain ⟨k, rfl⟩ : ∃ k, i = k + 1 := ⟨i - 1, by omega⟩
    have hlt := at'_lt hx (show k < k + 1 by omega) hi
    rw [C60_linear_inside_partial xp fp hx k hi _ hlt le_rfl mode hm]
    unfold lineThrough
    have : at' xp (k + 1) - at' xp k ≠ 0 := by linarith |> fun h : at' xp (k + 1) - at' xp k > 0 => h.ne'
    congr 1
    field_simp
    ring

/-- **C60**, straight lines: data on a straight line are reproduced at every query inside the range. -/
theorem C60_linear_exact_partial (a b : ℝ) (xp : List ℝ) (hx : xp.Pairwise (· < ·)) (h2 : 2 ≤ xp.length) (x : ℝ)
    (h0 : at' xp 0 ≤ x) (h1 : x ≤ at' xp (xp.length - 1)) (mode : String) (hm : mode ≠ "error") :
    interp x xp (xp.map fun t => a + b * t) mode = .ok (a + b * x) := by
  rcases h0.eq_or_lt with e | h0
  · rw [← e, C60_linear_samples_partial xp _ hx h2 0 (by omega) mode hm, at'_map _ _ (by omega)]
  · -- the first index whose sample is at or above x
    have hex : ∃ j, j < xp.length ∧ x ≤ at' xp j := ⟨xp.length - 1, by omega, h1⟩
    classical
    set j := Nat.find hex with hj
    have hjs := Nat.find_spec hex
    rw [← hj] at hjs
    have hj0 : j ≠ 0 := by intro e; rw [e] at hjs; linarith [hjs.2]
    obtain ⟨k, hk⟩ : ∃ k, j = k + 1 := ⟨j - 1, by omega⟩
    rw [hk] at hjs
    have hkx : at' xp k < x := by
      have := Nat.find_min hex (m := k) (by omega)
      push Not at this
      exact this (by omega)
    have hlt := at'_lt hx (show k < k + 1 by omega) hjs.1
    rw [C60_linear_inside_partial xp _ hx k hjs.1 x hkx hjs.2 mode hm, at'_map _ _ (by omega), at'_map _ _ hjs.1]
    unfold lineThrough
    have : at' xp (k + 1) - at' xp k ≠ 0 := by linarith |> fun h : at' xp (k + 1) - at' xp k > 0 => h.ne'
    congr 1
    field_simp
    ring

/-- What is missing in C60: the "error" mode of `_interp` forgets the shift by one: it uses the line of the *next* segment
(here the second segment for a query in the first one), and raises for every query in the last segment. -/
theorem C60_error_mode_fails :
    interp 0.5 [0, 1, 2] [0, 0, 1] "error" = .ok (-0.5) ∧
    interp 1.5 [0, 1, 2] [0, 0, 1] "error" = .error .valueError := by
  have s1 : searchsorted [0, 1, 2] 0.5 = 1 := by simp [searchsorted, List.countP_cons]; norm_num
  have s2 : searchsorted [0, 1, 2] 1.5 = 2 := by simp [searchsorted, List.countP_cons]; norm_num
  constructor
  · unfold interp
    simp only [s1]
    simp [slope, offset, at']
    norm_num
  · unfold interp
    simp only [s2]
    simp

/-- **C60**, quadratic.  On a strictly increasing grid of at least three points `_interpquad` reproduces every quadratic at
every query (inside the range in "const" mode), in particular it is exact on quadratic data. -/
theorem C60_quadratic_exact (a b c : ℝ) (xp : List ℝ) (hx : xp.Pairwise (· < ·)) (h3 : 3 ≤ xp.length) (x : ℝ)
    (mode : String) (hr : mode = "const" → at' xp 0 ≤ x ∧ x ≤ at' xp (xp.length - 1)) :
    interpquad x xp (xp.map fun t => a + b * t + c * t ^ 2) mode = a + b * x + c * x ^ 2 := by
  unfold interpquad
  simp only
  set i := min (max (searchsorted xp x) 1) (xp.length - 2) with hi
  have hi1 : 1 ≤ i := by omega
  have hi2 : i + 1 < xp.length := by omega
  obtain ⟨k, hk⟩ : ∃ k, i = k + 1 := ⟨i - 1, by omega⟩
  rw [hk] at hi2 ⊢
  have g1 := at'_lt hx (show k < k + 1 by omega) (by omega)
  have g2 := at'_lt hx (show k + 1 < k + 1 + 1 by omega) hi2
  have main : at' (xp.map fun t => a + b * t + c * t ^ 2) (k + 1 - 1)
        * ((x - at' xp (k + 1)) * (x - at' xp (k + 1 + 1)) / ((at' xp (k + 1 - 1) - at' xp (k + 1)) * (at' xp (k + 1 - 1) - at' xp (k + 1 + 1))))
      + at' (xp.map fun t => a + b * t + c * t ^ 2) (k + 1)
        * ((x - at' xp (k + 1 - 1)) * (x - at' xp (k + 1 + 1)) / ((at' xp (k + 1) - at' xp (k + 1 - 1)) * (at' xp (k + 1) - at' xp (k + 1 + 1))))
      + at' (xp.map fun t => a + b * t + c * t ^ 2) (k + 1 + 1)
        * ((x - at' xp (k + 1 - 1)) * (x - at' xp (k + 1)) / ((at' xp (k + 1 + 1) - at' xp (k + 1 - 1)) * (at' xp (k + 1 + 1) - at' xp (k + 1))))
      = a + b * x + c * x ^ 2 := by
    rw [Nat.add_sub_cancel, at'_map _ _ (by omega), at'_map _ _ (by omega), at'_map _ _ hi2]
    generalize at' xp k = u at *
    generalize at' xp (k + 1) = v at *
    generalize at' xp (k + 1 + 1) = w at *
    have e1 : u - v ≠ 0 := by linarith |> fun h : u - v < 0 => h.ne
    have e2 : u - w ≠ 0 := by linarith |> fun h : u - w < 0 => h.ne
    have e3 : v - w ≠ 0 := by linarith |> fun h : v - w < 0 => h.ne
    have e4 : v - u ≠ 0 := by linarith |> fun h : v - u > 0 => h.ne'
    have e5 : w - u ≠ 0 := by linarith |> fun h : w - u > 0 => h.ne'
    have e6 : w - v ≠ 0 := by linarith |> fun h : w - v > 0 => h.ne'
    rw [← neg_sub v u, ← neg_sub w u, ← neg_sub w v]
    field_simp
    ring
  rw [main]
  by_cases hm : mode = "const"
  · obtain ⟨r1, r2⟩ := hr hm
    rw [if_pos hm, if_neg (not_lt.2 r2), if_neg (not_lt.2 r1)]
  · rw [if_neg hm]

/-- **C60**, quadratic, samples and clamping: the samples are reproduced, and in "const" mode queries outside the range return
the nearest sample. -/
theorem C60_quadratic_samples (xp fp : List ℝ) (hx : xp.Pairwise (· < ·)) (h3 : 3 ≤ xp.length) :
    (∀ mode, ∀ i < xp.length, interpquad (at' xp i) xp fp mode = at' fp i) ∧
    (∀ x, x < at' xp 0 → interpquad x xp fp "const" = at' fp 0) ∧
    (∀ x, at' xp (xp.length - 1) < x → interpquad x xp fp "const" = at' fp (xp.length - 1)) := by
  have h0l : at' xp 0 < at' xp (xp.length - 1) := at'_lt hx (by omega) (by omega)
  refine ⟨fun mode i hi => ?_, fun x h => ?_, fun x h => ?_⟩
  · have hs : searchsorted xp (at' xp i) = i := by
      apply countP_prefix _ hi.le (fun j hj => at'_lt hx hj hi)
      intro j hj hj'
      rcases hj.eq_or_lt with rfl | h
      · exact le_rfl
      · exact (at'_lt hx h hj').le
    have hr : at' xp 0 ≤ at' xp i ∧ at' xp i ≤ at' xp (xp.length - 1) := by
      constructor
      · rcases Nat.eq_zero_or_pos i with rfl | hp
        · exact le_rfl
        · exact (at'_lt hx hp hi).le
      · rcases Nat.lt_or_ge i (xp.length - 1) with h | h
        · exact (at'_lt hx h (by omega)).le
        · rw [show i = xp.length - 1 by omega]
    unfold interpquad
    simp only [hs]
    rw [if_neg (not_lt.2 hr.1), if_neg (not_lt.2 hr.2)]
    rw [ite_self]
    obtain ⟨k, hk⟩ : ∃ k, min (max i 1) (xp.length - 2) = k + 1 := ⟨min (max i 1) (xp.length - 2) - 1, by omega⟩
    rw [hk, Nat.add_sub_cancel]
    have g1 := at'_lt hx (show k < k + 1 by omega) (by omega)
    have g2 := at'_lt hx (show k + 1 < k + 1 + 1 by omega) (by omega)
    have e1 : at' xp k - at' xp (k + 1) ≠ 0 := by linarith |> fun h : at' xp k - at' xp (k + 1) < 0 => h.ne
    have e2 : at' xp k - at' xp (k + 1 + 1) ≠ 0 := by linarith |> fun h : at' xp k - at' xp (k + 1 + 1) < 0 => h.ne
    have e3 : at' xp (k + 1) - at' xp (k + 1 + 1) ≠ 0 := by
      linarith |> fun h : at' xp (k + 1) - at' xp (k + 1 + 1) < 0 => h.ne
    have e4 : at' xp (k + 1) - at' xp k ≠ 0 := by linarith |> fun h : at' xp (k + 1) - at' xp k > 0 => h.ne'
    have e5 : at' xp (k + 1 + 1) - at' xp k ≠ 0 := by linarith |> fun h : at' xp (k + 1 + 1) - at' xp k > 0 => h.ne'
    have e6 : at' xp (k + 1 + 1) - at' xp (k + 1) ≠ 0 := by
      linarith |> fun h : at' xp (k + 1 + 1) - at' xp (k + 1) > 0 => h.ne'
    have hcase : i = k ∨ i = k + 1 ∨ i = k + 1 + 1 := by omega
    rcases hcase with rfl | rfl | rfl
    · simp only [sub_self, zero_mul, mul_zero, zero_div, add_zero]
      rw [div_self (mul_ne_zero e1 e2), mul_one]
    · simp only [sub_self, zero_mul, mul_zero, zero_div, add_zero, zero_add]
      rw [div_self (mul_ne_zero e4 e3), mul_one]
    · simp only [sub_self, zero_mul, mul_zero, zero_div, zero_add]
      rw [div_self (mul_ne_zero e5 e6), mul_one]
  · unfold interpquad
    simp only [if_true, if_pos h]
    rw [if_neg (by linarith)]
  · unfold interpquad
    simp only [if_true]
    rw [if_pos h]

example : ([0, 1, 3] : List ℝ).Pairwise (· < ·) ∧ 3 ≤ ([0, 1, 3] : List ℝ).length ∧ at' [0, 1, 3] 0 ≤ (2 : ℝ) ∧
    (2 : ℝ) ≤ at' [0, 1, 3] 2 ∧ "const" ≠ "error" := by
  refine ⟨by norm_num, by simp, by simp [at'], by simp [at']; norm_num, by decide⟩

end Verif.Numerics
