import Verif.Props.Sampling
import Mathlib.Algebra.Ring.Parity
/-!
C65: the local refinement grid.
-/
namespace Verif.Samp
open Verif Real

/-- The axis values of the grid: `s·(i - r)/r`. -/
theorem grid_axis (s : ℝ) (r : ℕ) (hr : 1 ≤ r) : linspace (-s) s (2 * r + 1) =
    (List.range (2 * r + 1)).map fun i : ℕ => s * (((i : ℝ) - r) / r) := by
  unfold linspace
  rw [if_neg (by omega)]
  apply List.map_congr_left
  intro i _
  have : (r:ℝ) ≠ 0 := by positivity
  push_cast
  field_simp
  ring

theorem axis_neg_rev (s : ℝ) (r : ℕ) (hr : 1 ≤ r) :
    (linspace (-s) s (2 * r + 1)).map (-·) = (linspace (-s) s (2 * r + 1)).reverse := by
  rw [grid_axis s r hr]
  apply List.ext_getElem
  · simp
  · intro i h1 h2
    simp only [List.length_map, List.length_range] at h1
    simp only [List.getElem_map, List.getElem_range, List.getElem_reverse, List.length_map, List.length_range]
    rw [show 2 * r + 1 - 1 - i = 2 * r - i by omega, Nat.cast_sub (by omega)]
    push_cast; ring

theorem mesh3_rev (c : List ℝ) : mesh3 c.reverse = (mesh3 c).reverse := by
  unfold mesh3
  simp only [List.reverse_flatMap, List.map_reverse]
  congr 1
  funext x
  simp [List.reverse_flatMap, Function.comp_def]

theorem mesh3_map_neg (c : List ℝ) : (mesh3 c).map (fun v => (⟨-v.x, -v.y, -v.z⟩ : V)) = mesh3 (c.map (-·)) := by
  unfold mesh3
  simp [List.map_flatMap, List.flatMap_map, Function.comp_def]


theorem countP_split (c : List ℝ) : c.countP (fun x => decide (x ≠ 0)) + c.countP (fun x => decide (x = 0)) = c.length := by
  rw [add_comm, List.length_eq_countP_add_countP (fun x => decide (x = 0)) (l := c)]
  congr 1
  apply List.countP_congr
  intro x _; simp

theorem sum_ite (c : List ℝ) (A B : ℕ) : (c.map fun x => if x = 0 then A else B).sum =
    c.countP (fun x => decide (x = 0)) * A + c.countP (fun x => decide (x ≠ 0)) * B := by
  induction c with
  | nil => simp
  | cons x c ih =>
    rw [List.map_cons, List.sum_cons, ih, List.countP_cons, List.countP_cons]
    by_cases h : x = 0
    · simp [h]; ring
    · simp [h]; ring

theorem count_ge2 (c : List ℝ) : ((mesh3 c).filter fun v => decide (2 ≤ zeros v)).length =
    c.countP (fun x => decide (x = 0)) ^ 3
      + 3 * c.countP (fun x => decide (x = 0)) ^ 2 * c.countP (fun x => decide (x ≠ 0)) := by
  set a := c.countP (fun x => decide (x = 0)) with ha
  set n := c.countP (fun x => decide (x ≠ 0)) with hn
  have inner : ∀ x y : ℝ, (c.map fun z => (⟨x, y, z⟩ : V)).countP (fun v => decide (2 ≤ zeros v)) =
      if x = 0 then (if y = 0 then a + n else a) else (if y = 0 then a else 0) := by
    intro x y
    rw [List.countP_map]
    by_cases hx : x = 0 <;> by_cases hy : y = 0
    · rw [if_pos hx, if_pos hy]
      have : c.countP (fun _ => true) = a + n := by
        rw [List.countP_true, ← countP_split c]; ring
      rw [← this]
      apply List.countP_congr
      intro z _; simp [zeros, hx, hy]
    · rw [if_pos hx, if_neg hy]
      apply List.countP_congr
      intro z _; by_cases hz : z = 0 <;> simp [zeros, hx, hy, hz]
    · rw [if_neg hx, if_pos hy]
      apply List.countP_congr
      intro z _; by_cases hz : z = 0 <;> simp [zeros, hx, hy, hz]
    · rw [if_neg hx, if_neg hy, List.countP_eq_zero]
      intro z _; by_cases hz : z = 0 <;> simp [zeros, hx, hy, hz]
  have mid : ∀ x : ℝ, (c.flatMap fun y => c.map fun z => (⟨x, y, z⟩ : V)).countP (fun v => decide (2 ≤ zeros v)) =
      if x = 0 then a * (a + n) + n * a else a * a := by
    intro x
    rw [List.countP_flatMap]
    by_cases hx : x = 0
    · rw [if_pos hx]
      have : (List.countP (fun v => decide (2 ≤ zeros v)) ∘ fun y => c.map fun z => (⟨x, y, z⟩ : V)) =
          fun y => if y = 0 then a + n else a := by
        funext y; simp only [Function.comp_apply, inner, if_pos hx]
      rw [this, sum_ite]
    · rw [if_neg hx]
      have : (List.countP (fun v => decide (2 ≤ zeros v)) ∘ fun y => c.map fun z => (⟨x, y, z⟩ : V)) =
          fun y => if y = 0 then a else 0 := by
        funext y; simp only [Function.comp_apply, inner, if_neg hx]
      rw [this, sum_ite]; ring
  rw [← List.countP_eq_length_filter]
  unfold mesh3
  rw [List.countP_flatMap]
  have : (List.countP (fun v => decide (2 ≤ zeros v)) ∘ fun x => c.flatMap fun y => c.map fun z => (⟨x, y, z⟩ : V)) =
      fun x => if x = 0 then a * (a + n) + n * a else a * a := by
    funext x; exact mid x
  rw [this, sum_ite]
  change a * (a * (a + n) + n * a) + n * (a * a) = _
  ring

theorem count_ge1 (c : List ℝ) : ((mesh3 c).filter fun v => decide (1 ≤ zeros v)).length =
    c.length ^ 3 - c.countP (fun x => decide (x ≠ 0)) ^ 3 := by
  have h : (mesh3 c).countP (fun v => ¬ decide (1 ≤ zeros v)) = c.countP (fun x => decide (x ≠ 0)) ^ 3 := by
    set n := c.countP (fun x => decide (x ≠ 0)) with hn
    have inner : ∀ x y : ℝ, (c.map fun z => (⟨x, y, z⟩ : V)).countP (fun v => ¬ decide (1 ≤ zeros v)) =
        if x = 0 then 0 else (if y = 0 then 0 else n) := by
      intro x y
      rw [List.countP_map]
      by_cases hx : x = 0
      · rw [if_pos hx, List.countP_eq_zero]
        intro z _; simp [zeros, hx]
      · rw [if_neg hx]
        by_cases hy : y = 0
        · rw [if_pos hy, List.countP_eq_zero]
          intro z _; simp [zeros, hy]
        · rw [if_neg hy]
          apply List.countP_congr
          intro z _; by_cases hz : z = 0 <;> simp [zeros, hx, hy, hz]
    have mid : ∀ x : ℝ, (c.flatMap fun y => c.map fun z => (⟨x, y, z⟩ : V)).countP (fun v => ¬ decide (1 ≤ zeros v)) =
        if x = 0 then 0 else n * n := by
      intro x
      rw [List.countP_flatMap]
      have : (List.countP (fun v => decide ¬ (decide (1 ≤ zeros v) = true)) ∘ fun y => c.map fun z => (⟨x, y, z⟩ : V)) =
          fun y => if x = 0 then 0 else (if y = 0 then 0 else n) := by
        funext y; exact inner x y
      rw [this]
      by_cases hx : x = 0
      · simp [hx]
      · simp only [if_neg hx]; rw [sum_ite]; simp [hn]
    unfold mesh3
    rw [List.countP_flatMap]
    have : (List.countP (fun v => decide ¬ (decide (1 ≤ zeros v) = true)) ∘
        fun x => c.flatMap fun y => c.map fun z => (⟨x, y, z⟩ : V)) = fun x => if x = 0 then 0 else n * n := by
      funext x; exact mid x
    rw [this, sum_ite, ← hn]; ring
  have h2 := List.length_eq_countP_add_countP (fun v => decide (1 ≤ zeros v)) (l := mesh3 c)
  rw [h, mesh3_length] at h2
  rw [← List.countP_eq_length_filter]
  omega

theorem semiEdge_ne {deg : ℝ} (h : deg ≠ 0) : semiEdge deg ≠ 0 := by
  have := rpow_pos_of_pos pi_pos ((2:ℝ)/3)
  unfold semiEdge
  positivity

theorem axis_zero_count {s : ℝ} (hs : s ≠ 0) {r : ℕ} (hr : 1 ≤ r) :
    (linspace (-s) s (2 * r + 1)).countP (fun x => decide (x = 0)) = 1 := by
  rw [grid_axis s r hr, List.countP_map]
  have hr' : (r:ℝ) ≠ 0 := by positivity
  have : ∀ i : ℕ, s * (((i:ℝ) - r) / r) = 0 ↔ i = r := by
    intro i
    rw [mul_eq_zero, or_iff_right hs, div_eq_zero_iff, or_iff_left hr', sub_eq_zero]
    exact Nat.cast_inj
  rw [List.countP_congr (q := fun i => decide (i = r)) (by intro i _; simp [this])]
  have := List.count_eq_one_of_mem (List.nodup_range (n := 2 * r + 1)) (List.mem_range.mpr (by omega : r < 2 * r + 1))
  rw [List.count] at this
  refine Eq.trans ?_ this
  apply List.countP_congr
  intro i _; simp

/-- negation of a grid point -/
def negV (v : V) : V := ⟨-v.x, -v.y, -v.z⟩

theorem zeros_neg (v : V) : zeros (negV v) = zeros v := by unfold zeros negV; simp

theorem mesh_neg_rev (s : ℝ) (r : ℕ) (hr : 1 ≤ r) :
    (mesh3 (linspace (-s) s (2 * r + 1))).map negV = (mesh3 (linspace (-s) s (2 * r + 1))).reverse := by
  rw [← mesh3_rev, ← axis_neg_rev s r hr, ← mesh3_map_neg]; rfl

theorem filter_neg_rev {l : List V} (h : l.map negV = l.reverse) (k : ℕ) :
    (l.filter fun v => decide (k ≤ zeros v)).map negV = (l.filter fun v => decide (k ≤ zeros v)).reverse := by
  rw [← List.filter_reverse, ← h, List.filter_map]
  congr 1
  apply List.filter_congr
  intro v _; simp [zeros_neg]

theorem middle_zero {l : List V} (h : l.map negV = l.reverse) (hodd : l.length % 2 = 1) :
    l[(l.length - 1) / 2]? = some ⟨0, 0, 0⟩ := by
  have hlt : (l.length - 1) / 2 < l.length := by omega
  rw [List.getElem?_eq_getElem hlt]
  have e : (l.map negV)[(l.length - 1) / 2]? = l.reverse[(l.length - 1) / 2]? := by rw [h]
  rw [List.getElem?_map, List.getElem?_reverse hlt, show l.length - 1 - (l.length - 1) / 2 = (l.length - 1) / 2 by omega,
    List.getElem?_eq_getElem hlt] at e
  simp only [Option.map_some, Option.some.injEq] at e
  set v := l[(l.length - 1) / 2]
  have e1 := congrArg V.x e
  have e2 := congrArg V.y e
  have e3 := congrArg V.z e
  simp only [negV] at e1 e2 e3
  congr 1
  ext <;> simp only <;> linarith

theorem axis_mem_bound (s : ℝ) (hs : 0 ≤ s) (n : ℕ) (x : ℝ) (h : x ∈ linspace (-s) s n) : |x| ≤ s := by
  unfold linspace at h
  split at h
  · simp only [List.mem_singleton] at h; rw [h, abs_neg, abs_of_nonneg hs]
  · simp only [List.mem_map, List.mem_range] at h
    obtain ⟨i, hi, rfl⟩ := h
    have hn : 2 ≤ n := by omega
    have hn' : (2:ℝ) ≤ n := by exact_mod_cast hn
    have hi' : (i:ℝ) + 1 ≤ n := by exact_mod_cast hi
    have hi0 : (0:ℝ) ≤ i := by positivity
    have hd : (0:ℝ) < n - 1 := by linarith
    rw [abs_le]
    have h1 : (i:ℝ) * ((s - -s) / (n - 1)) = (2 * s) * (i / (n - 1)) := by ring
    have h2 : 0 ≤ (i:ℝ) / (n - 1) := by positivity
    have h3 : (i:ℝ) / (n - 1) ≤ 1 := by rw [div_le_one hd]; linarith
    rw [h1]
    constructor <;> nlinarith

/-- C65: with `axial_grid_dimension = 3` and radius `r ≥ 1` the grid has `(2r+1)³` points: exactly all
`(s i/r, s j/r, s k/r)` with `|i|, |j|, |k| ≤ r`, where `s` is the semi edge; it equals its own negative
read backwards, the identity (origin) is the middle entry, and it stays within the semi edge. -/
theorem C65_full_grid (deg : ℝ) (r : ℕ) (hr : 1 ≤ r) :
    ∃ l, localGrid deg r 3 = some l ∧ l.length = (2 * r + 1) ^ 3 ∧
      (∀ v : V, v ∈ l ↔ ∃ i j k : ℤ, |i| ≤ r ∧ |j| ≤ r ∧ |k| ≤ r ∧
        v = ⟨semiEdge deg * (i / r), semiEdge deg * (j / r), semiEdge deg * (k / r)⟩) ∧
      l.map (fun v => (⟨-v.x, -v.y, -v.z⟩ : V)) = l.reverse ∧
      l[((2 * r + 1) ^ 3 - 1) / 2]? = some ⟨0, 0, 0⟩ := by
  have hlen : (mesh3 (linspace (-semiEdge deg) (semiEdge deg) (2 * r + 1))).length = (2 * r + 1) ^ 3 := by
    rw [mesh3_length, linspace_length]
  refine ⟨_, rfl, hlen, ?_, mesh_neg_rev _ r hr, ?_⟩
  · intro v
    have hax : ∀ x : ℝ, x ∈ linspace (-semiEdge deg) (semiEdge deg) (2 * r + 1) ↔
        ∃ i : ℤ, |i| ≤ r ∧ x = semiEdge deg * (i / r) := by
      intro x
      rw [grid_axis _ r hr, List.mem_map]
      constructor
      · rintro ⟨i, hi, rfl⟩
        have := List.mem_range.mp hi
        refine ⟨(i:ℤ) - r, by rw [abs_le]; omega, by push_cast; ring⟩
      · rintro ⟨i, hi, rfl⟩
        rw [abs_le] at hi
        refine ⟨(i + r).toNat, List.mem_range.mpr (by omega), ?_⟩
        have : (((i + r).toNat : ℕ) : ℝ) = i + r := by
          have h : (((i + r).toNat : ℕ) : ℤ) = i + r := Int.toNat_of_nonneg (by omega)
          exact_mod_cast h
        rw [this]; ring
    rw [mem_mesh3, hax, hax, hax]
    constructor
    · rintro ⟨⟨i, hi, h1⟩, ⟨j, hj, h2⟩, ⟨k, hk, h3⟩⟩
      exact ⟨i, j, k, hi, hj, hk, by ext <;> simp [h1, h2, h3]⟩
    · rintro ⟨i, j, k, hi, hj, hk, rfl⟩
      exact ⟨⟨i, hi, rfl⟩, ⟨j, hj, rfl⟩, ⟨k, hk, rfl⟩⟩
  · rw [← hlen]
    apply middle_zero (mesh_neg_rev _ r hr)
    rw [hlen]
    exact Nat.odd_iff.mp (Odd.pow (by exact ⟨r, rfl⟩))

/-- C65: the biaxial (2) and uniaxial (1) grids are the points of the full grid, in the same order, with
at least one / two vanishing coordinates; for a non-zero semi edge they have `(2r+1)³ - (2r)³` and
`6r + 1` points; they too are symmetric with the identity as middle entry. -/
theorem C65_axial_grids (deg : ℝ) (hd : deg ≠ 0) (r : ℕ) (hr : 1 ≤ r) :
    ∃ l l2 l1, localGrid deg r 3 = some l ∧ localGrid deg r 2 = some l2 ∧ localGrid deg r 1 = some l1 ∧
      l2.Sublist l ∧ l1.Sublist l2 ∧
      (∀ v ∈ l, v ∈ l2 ↔ v.x = 0 ∨ v.y = 0 ∨ v.z = 0) ∧
      (∀ v ∈ l, v ∈ l1 ↔ (v.x = 0 ∧ v.y = 0) ∨ (v.y = 0 ∧ v.z = 0) ∨ (v.x = 0 ∧ v.z = 0)) ∧
      l2.length = (2 * r + 1) ^ 3 - (2 * r) ^ 3 ∧ l1.length = 6 * r + 1 ∧
      l2.map (fun v => (⟨-v.x, -v.y, -v.z⟩ : V)) = l2.reverse ∧
      l1.map (fun v => (⟨-v.x, -v.y, -v.z⟩ : V)) = l1.reverse ∧
      l2[(l2.length - 1) / 2]? = some ⟨0, 0, 0⟩ ∧ l1[(l1.length - 1) / 2]? = some ⟨0, 0, 0⟩ := by
  have hc1 := axis_zero_count (semiEdge_ne hd) hr
  have hc2 := countP_split (linspace (-semiEdge deg) (semiEdge deg) (2 * r + 1))
  rw [hc1, linspace_length] at hc2
  have hc3 : (linspace (-semiEdge deg) (semiEdge deg) (2 * r + 1)).countP (fun x => decide (x ≠ 0)) = 2 * r := by omega
  have hl2 := count_ge1 (linspace (-semiEdge deg) (semiEdge deg) (2 * r + 1))
  have hl1 := count_ge2 (linspace (-semiEdge deg) (semiEdge deg) (2 * r + 1))
  rw [linspace_length, hc3] at hl2
  rw [hc1, hc3] at hl1
  have hn2 := filter_neg_rev (mesh_neg_rev (semiEdge deg) r hr) 1
  have hn1 := filter_neg_rev (mesh_neg_rev (semiEdge deg) r hr) 2
  have hsub : ∀ l : List V, (l.filter fun v => decide (2 ≤ zeros v)) =
      (l.filter fun v => decide (1 ≤ zeros v)).filter fun v => decide (2 ≤ zeros v) := by
    intro l
    rw [List.filter_filter]
    apply List.filter_congr
    intro v _
    by_cases h : 2 ≤ zeros v
    · simp [h]; omega
    · simp [h]
  refine ⟨_, _, _, rfl, rfl, rfl, List.filter_sublist, ?_, ?_, ?_, hl2, by rw [hl1]; ring, hn2, hn1,
    middle_zero hn2 ?_, middle_zero hn1 ?_⟩
  · rw [hsub]; exact List.filter_sublist
  · intro v hv
    rw [List.mem_filter]
    simp only [hv, true_and, decide_eq_true_eq, zeros]
    by_cases h1 : v.x = 0 <;> by_cases h2 : v.y = 0 <;> by_cases h3 : v.z = 0 <;> simp [h1, h2, h3]
  · intro v hv
    rw [List.mem_filter]
    simp only [hv, true_and, decide_eq_true_eq, zeros]
    by_cases h1 : v.x = 0 <;> by_cases h2 : v.y = 0 <;> by_cases h3 : v.z = 0 <;> simp [h1, h2, h3]
  · rw [hl2]
    have h1 : (2 * r + 1) ^ 3 % 2 = 1 := Nat.odd_iff.mp (Odd.pow ⟨r, rfl⟩)
    have h2 : (2 * r) ^ 3 % 2 = 0 := by
      rw [show (2 * r) ^ 3 = 2 * (4 * r ^ 3) by ring]; omega
    have h3 : (2 * r) ^ 3 ≤ (2 * r + 1) ^ 3 := Nat.pow_le_pow_left (by omega) 3
    omega
  · rw [hl1]; omega

/-- C65: every other dimension raises. -/
theorem C65_reject (deg : ℝ) (r : ℕ) (dim : ℤ) :
    localGrid deg r dim = none ↔ dim ≠ 1 ∧ dim ≠ 2 ∧ dim ≠ 3 := by
  unfold localGrid
  by_cases h3 : dim = 3 <;> by_cases h2 : dim = 2 <;> by_cases h1 : dim = 1 <;> simp [h1, h2, h3]

/-- C65 fails for radius 0: the only point is the corner `(-s, -s, -s)`, not the identity. -/
theorem C65_radius_zero_fails (deg : ℝ) (hd : deg ≠ 0) :
    localGrid deg 0 3 = some [⟨-semiEdge deg, -semiEdge deg, -semiEdge deg⟩] ∧
    (⟨0, 0, 0⟩ : V) ∉ [(⟨-semiEdge deg, -semiEdge deg, -semiEdge deg⟩ : V)] := by
  refine ⟨by simp [localGrid, mesh3, linspace], ?_⟩
  have := semiEdge_ne hd
  simp [V.ext_iff, this.symm, this]

/-- non-vacuity: radius 1 and the default uniaxial grid with 7 points. -/
example : ∃ l, localGrid 1 1 1 = some l ∧ l.length = 7 := by
  obtain ⟨_, _, l, -, -, h, -, -, -, -, -, hl, -⟩ := C65_axial_grids 1 one_ne_zero 1 le_rfl
  exact ⟨l, h, hl⟩

end Verif.Samp
