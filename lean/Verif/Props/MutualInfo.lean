import Verif.Model.MutualInfo
import Verif.Lemmas.Entropy
import Mathlib.Tactic.Positivity
/-!
C37 (joint histogram bins) and C86 (bounds of the mutual information) for utils/mutual_information.py.
-/
namespace Verif.MI
open Finset Real

/-! ### histogram facts -/

theorem count_total {α : Type} (L : List α) (f : α → ℕ × ℕ) (nx ny : ℕ) (h : ∀ a ∈ L, (f a).1 < nx ∧ (f a).2 < ny) :
    ∑ i ∈ range nx, ∑ j ∈ range ny, (L.filter fun a => decide (f a = (i, j))).length = L.length := by
  induction L with
  | nil => simp
  | cons a L ih =>
    have h' := ih fun b hb => h b (List.mem_cons_of_mem _ hb)
    obtain ⟨h1, h2⟩ := h a List.mem_cons_self
    have e : ∀ i j, ((a :: L).filter fun a => decide (f a = (i, j))).length =
        (L.filter fun a => decide (f a = (i, j))).length + if (f a).1 = i then (if (f a).2 = j then 1 else 0) else 0 := by
      intro i j
      rw [List.filter_cons]
      by_cases hh : f a = (i, j)
      · simp [hh]
      · have : ¬ ((f a).1 = i ∧ (f a).2 = j) := fun hc => hh (Prod.ext hc.1 hc.2)
        simp only [hh, decide_false, Bool.false_eq_true, if_false]
        by_cases g1 : (f a).1 = i
        · have : ¬ (f a).2 = j := fun g2 => this ⟨g1, g2⟩
          simp [g1, this]
        · simp [g1]
    simp only [e, sum_add_distrib, h']
    have : ∀ i ∈ range nx, ∑ j ∈ range ny, (if (f a).1 = i then (if (f a).2 = j then 1 else 0) else 0) =
        if (f a).1 = i then 1 else 0 := by
      intro i _
      by_cases g : (f a).1 = i
      · simp [g, h2]
      · simp [g]
    rw [sum_congr rfl this]
    simp [h1]

/-- Specification: how many pixels have `x` in the `i`-th of `bx` equal sub-intervals of `[0,1)` and `y` in the `j`-th of
`byy`. -/
noncomputable def pairCount (x y : List ℝ) (bx byy i j : ℕ) : ℕ :=
  open Classical in
  ((List.zip x y).filter fun p : ℝ × ℝ =>
    decide ((i : ℝ) / bx ≤ p.1 ∧ p.1 < ((i : ℝ) + 1) / bx ∧ (j : ℝ) / byy ≤ p.2 ∧ p.2 < ((j : ℝ) + 1) / byy)).length

theorem floor_bin {u : ℝ} {b : ℕ} (hb : 0 < b) (i : ℕ) : ⌊u * b⌋ = (i : ℤ) ↔ (i : ℝ) / b ≤ u ∧ u < ((i : ℝ) + 1) / b := by
  have : (0 : ℝ) < b := by exact_mod_cast hb
  rw [Int.floor_eq_iff, div_le_iff₀ this, lt_div_iff₀ this]; push_cast; rfl

theorem floor_range {u : ℝ} {b : ℕ} (hb : 0 < b) (h0 : 0 ≤ u) (h1 : u < 1) : ∃ k : ℕ, k < b ∧ ⌊u * b⌋ = (k : ℤ) := by
  have hb' : (0 : ℝ) < b := by exact_mod_cast hb
  have a : 0 ≤ ⌊u * b⌋ := Int.floor_nonneg.mpr (by positivity)
  have c : ⌊u * b⌋ < (b : ℤ) := by
    rw [Int.floor_lt]; push_cast
    calc u * b < 1 * b := mul_lt_mul_of_pos_right h1 hb'
      _ = b := one_mul _
  exact ⟨⌊u * b⌋.toNat, by omega, by omega⟩

theorem flat_inj {b i j i' j' : ℕ} (hj : j < b) (hj' : j' < b) (h : i * b + j = i' * b + j') : i = i' ∧ j = j' := by
  have hb : 0 < b := by omega
  have e1 : (j + b * i) / b = i := by rw [Nat.add_mul_div_left _ _ hb, Nat.div_eq_of_lt hj]; omega
  have e2 : (j' + b * i') / b = i' := by rw [Nat.add_mul_div_left _ _ hb, Nat.div_eq_of_lt hj']; omega
  have hi : i = i' := by
    rw [← e1, ← e2]; congr 1
    rw [Nat.mul_comm b i, Nat.mul_comm b i']; omega
  subst hi
  exact ⟨rfl, by omega⟩

theorem combined_bin {bx byy I J i j : ℕ} (hI : I < bx) (hJ : J < byy) (hj : j < byy) :
    (0 ≤ (I : ℝ) * byy + (J : ℝ) ∧ (I : ℝ) * byy + (J : ℝ) ≤ ((bx * byy : ℕ) : ℝ) ∧
      min ⌊((I : ℝ) * byy + (J : ℝ)) / ((bx * byy : ℕ) : ℝ) * ((bx * byy : ℕ) : ℝ)⌋ (((bx * byy : ℕ) : ℤ) - 1) =
        ((i * byy + j : ℕ) : ℤ)) ↔ I = i ∧ J = j := by
  have hlt : I * byy + J < bx * byy := by
    calc I * byy + J < I * byy + byy := by omega
      _ = (I + 1) * byy := by ring
      _ ≤ bx * byy := Nat.mul_le_mul_right _ hI
  have hpos : ((bx * byy : ℕ) : ℝ) ≠ 0 := by
    have : 0 < bx * byy := by omega
    exact_mod_cast this.ne'
  have e : (I : ℝ) * byy + (J : ℝ) = ((I * byy + J : ℕ) : ℝ) := by push_cast; ring
  rw [e, div_mul_cancel₀ _ hpos, Int.floor_natCast]
  have e2 : min ((I * byy + J : ℕ) : ℤ) (((bx * byy : ℕ) : ℤ) - 1) = ((I * byy + J : ℕ) : ℤ) :=
    min_eq_left (by omega)
  rw [e2]
  constructor
  · rintro ⟨-, -, h⟩
    exact flat_inj hJ hj (by exact_mod_cast h)
  · rintro ⟨rfl, rfl⟩
    exact ⟨by positivity, by exact_mod_cast hlt.le, rfl⟩

/-- C37 (binned_nmi, what holds): for images with values in `[0, 1)` the joint histogram counts in each cell exactly the
pixel pairs whose two individual bins are those of the cell, and the counts sum to the number of pixels.  Missing: pixels
of value exactly 1, which the docstring admits; see `C37_binned_one_fails`. -/
theorem C37_binned_partial (x y : List ℝ) (bx byy : ℕ) (hbx : 0 < bx) (hby : 0 < byy)
    (hx : ∀ v ∈ x, 0 ≤ v ∧ v < 1) (hy : ∀ v ∈ y, 0 ≤ v ∧ v < 1) :
    (∀ i < bx, ∀ j < byy, jointHist x y bx byy i j = pairCount x y bx byy i j) ∧
    ∑ i ∈ range bx, ∑ j ∈ range byy, jointHist x y bx byy i j = min x.length y.length := by
  have key : ∀ i j, j < byy → jointHist x y bx byy i j = ((List.zip x y).filter fun p : ℝ × ℝ =>
      decide ((⌊p.1 * bx⌋.toNat, ⌊p.2 * byy⌋.toNat) = (i, j))).length := by
    intro i j hj
    unfold jointHist histc
    rw [← List.map_uncurry_zip_eq_zipWith, List.filter_map, List.length_map]
    congr 1
    refine List.filter_congr fun p hp => ?_
    obtain ⟨u, v⟩ := p
    obtain ⟨h1, h2⟩ := List.of_mem_zip hp
    obtain ⟨I, hI, eI⟩ := floor_range hbx (hx u h1).1 (hx u h1).2
    obtain ⟨J, hJ, eJ⟩ := floor_range hby (hy v h2).1 (hy v h2).2
    simp only [Function.comp, Function.uncurry, eI, eJ]
    rw [decide_eq_decide]
    have := combined_bin (i := i) hI hJ hj
    push_cast at this ⊢
    rw [this]
    simp
  constructor
  · intro i hi j hj
    rw [key i j hj]
    unfold pairCount
    congr 1
    refine List.filter_congr fun p hp => ?_
    obtain ⟨u, v⟩ := p
    obtain ⟨h1, h2⟩ := List.of_mem_zip hp
    rw [decide_eq_decide, Prod.mk.injEq]
    simp only
    rw [← and_assoc, ← floor_bin hbx, ← floor_bin hby]
    have a := Int.floor_nonneg.mpr (mul_nonneg (hx u h1).1 (Nat.cast_nonneg bx))
    have b := Int.floor_nonneg.mpr (mul_nonneg (hy v h2).1 (Nat.cast_nonneg byy))
    constructor
    · rintro ⟨p, q⟩; constructor <;> omega
    · rintro ⟨p, q⟩; constructor <;> omega
  · rw [← List.length_zip, ← count_total (List.zip x y) (fun p : ℝ × ℝ => (⌊p.1 * bx⌋.toNat, ⌊p.2 * byy⌋.toNat)) bx byy]
    · exact sum_congr rfl fun i _ => sum_congr rfl fun j hj => key i j (mem_range.mp hj)
    · intro p hp
      obtain ⟨u, v⟩ := p
      obtain ⟨h1, h2⟩ := List.of_mem_zip hp
      obtain ⟨I, hI, eI⟩ := floor_range hbx (hx u h1).1 (hx u h1).2
      obtain ⟨J, hJ, eJ⟩ := floor_range hby (hy v h2).1 (hy v h2).2
      simp only [eI, eJ]
      constructor <;> omega

/-- non-vacuity: two pixels, 2 by 3 bins. -/
example : ∑ i ∈ range 2, ∑ j ∈ range 3, jointHist [0.1, 0.9] [0.5, 0.2] 2 3 i j = 2 :=
  (C37_binned_partial [0.1, 0.9] [0.5, 0.2] 2 3 (by norm_num) (by norm_num)
    (by intro v hv; simp at hv; rcases hv with rfl | rfl <;> norm_num)
    (by intro v hv; simp at hv; rcases hv with rfl | rfl <;> norm_num)).2

theorem joint_one (u v : ℝ) (bx byy i j : ℕ) : jointHist [u] [v] bx byy i j =
    open Classical in
    if 0 ≤ ((⌊u * bx⌋ : ℤ) : ℝ) * byy + ((⌊v * byy⌋ : ℤ) : ℝ) ∧
      ((⌊u * bx⌋ : ℤ) : ℝ) * byy + ((⌊v * byy⌋ : ℤ) : ℝ) ≤ ((bx * byy : ℕ) : ℝ) ∧
      min ⌊(((⌊u * bx⌋ : ℤ) : ℝ) * byy + ((⌊v * byy⌋ : ℤ) : ℝ)) / ((bx * byy : ℕ) : ℝ) * ((bx * byy : ℕ) : ℝ)⌋
        (((bx * byy : ℕ) : ℤ) - 1) = ((i * byy + j : ℕ) : ℤ) then 1 else 0 := by
  unfold jointHist histc
  simp only [List.zipWith_cons_cons, List.zipWith_nil_right, List.filter_cons, List.filter_nil]
  split
  · rename_i h; rw [if_pos (by simpa using h)]; rfl
  · rename_i h; rw [if_neg (by simpa using h)]; rfl

/-- C37 violation (binned_nmi at the upper end of the documented range 0 to 1): a pixel pair `(1, 3/4)` is dropped from the
histogram, and a pair `(0, 1)` is counted in the cell of `x`-bin 1 and `y`-bin 0, that of the pair `(1/2, 0)`. -/
theorem C37_binned_one_fails :
    (∀ i < 2, ∀ j < 2, jointHist [1] [3 / 4] 2 2 i j = 0) ∧
    jointHist [0] [1] 2 2 1 0 = 1 ∧ jointHist [1 / 2] [0] 2 2 1 0 = 1 := by
  refine ⟨?_, ?_, ?_⟩
  · intro i _ j _
    rw [joint_one, if_neg]
    have e1 : ⌊(1 : ℝ) * ((2 : ℕ) : ℝ)⌋ = 2 := by rw [Int.floor_eq_iff]; norm_num
    have e2 : ⌊(3 / 4 : ℝ) * ((2 : ℕ) : ℝ)⌋ = 1 := by rw [Int.floor_eq_iff]; norm_num
    rw [e1, e2]
    norm_num
  · rw [joint_one, if_pos]
    have e1 : ⌊(0 : ℝ) * ((2 : ℕ) : ℝ)⌋ = 0 := by rw [Int.floor_eq_iff]; norm_num
    have e2 : ⌊(1 : ℝ) * ((2 : ℕ) : ℝ)⌋ = 2 := by rw [Int.floor_eq_iff]; norm_num
    rw [e1, e2]
    norm_num
  · rw [joint_one, if_pos]
    have e1 : ⌊(1 / 2 : ℝ) * ((2 : ℕ) : ℝ)⌋ = 1 := by rw [Int.floor_eq_iff]; norm_num
    have e2 : ⌊(0 : ℝ) * ((2 : ℕ) : ℝ)⌋ = 0 := by rw [Int.floor_eq_iff]; norm_num
    rw [e1, e2]
    norm_num

/-! ### `mutual_information` -/

/-- C37 (mutual_information): which pairs of individual bins share a joint bin: equal pairs, and `(i, n-1)` with `(i+1, 0)`.
The second kind makes the claim false for every `n ≥ 2`. -/
theorem C37_joint_bin_partial (n : ℕ) (i j i' j' : ℤ) (hi : 0 ≤ i ∧ i < n) (hj : 0 ≤ j ∧ j < n)
    (hi' : 0 ≤ i' ∧ i' < n) (hj' : 0 ≤ j' ∧ j' < n) :
    jointBins [i] [j] n = jointBins [i'] [j'] n ↔
      (i = i' ∧ j = j') ∨ (i' = i + 1 ∧ j = n - 1 ∧ j' = 0) ∨ (i = i' + 1 ∧ j' = n - 1 ∧ j = 0) := by
  simp only [jointBins, List.zipWith_cons_cons, List.zipWith_nil_right, List.cons.injEq, and_true]
  constructor
  · intro h
    rcases lt_trichotomy i i' with hlt | heq | hgt
    · right; left
      have h1 : (i' - i) * ((n : ℤ) - 1) = j - j' := by linarith
      by_cases hn : (n : ℤ) - 1 = 0
      · omega
      · have hn' : 0 < (n : ℤ) - 1 := by omega
        have : i' - i ≤ 1 := by
          by_contra hc
          have : 2 * ((n : ℤ) - 1) ≤ (i' - i) * ((n : ℤ) - 1) := Int.mul_le_mul_of_nonneg_right (by omega) hn'.le
          omega
        have e : i' = i + 1 := by omega
        subst e
        refine ⟨rfl, ?_⟩
        have : (i + 1 - i) * ((n : ℤ) - 1) = (n : ℤ) - 1 := by ring
        omega
    · left
      subst heq
      exact ⟨rfl, by omega⟩
    · right; right
      have h1 : (i - i') * ((n : ℤ) - 1) = j' - j := by linarith
      by_cases hn : (n : ℤ) - 1 = 0
      · omega
      · have hn' : 0 < (n : ℤ) - 1 := by omega
        have : i - i' ≤ 1 := by
          by_contra hc
          have : 2 * ((n : ℤ) - 1) ≤ (i - i') * ((n : ℤ) - 1) := Int.mul_le_mul_of_nonneg_right (by omega) hn'.le
          omega
        have e : i = i' + 1 := by omega
        subst e
        refine ⟨rfl, ?_⟩
        have : (i' + 1 - i') * ((n : ℤ) - 1) = (n : ℤ) - 1 := by ring
        omega
  · rintro (⟨rfl, rfl⟩ | ⟨rfl, rfl, rfl⟩ | ⟨rfl, rfl, rfl⟩)
    · rfl
    · ring
    · ring

theorem foldl_max_le (xs : List ℝ) (x : ℝ) : x ≤ xs.foldl max x ∧ ∀ v ∈ xs, v ≤ xs.foldl max x := by
  induction xs generalizing x with
  | nil => simp
  | cons a xs ih =>
    obtain ⟨h1, h2⟩ := ih (max x a)
    refine ⟨(le_max_left _ _).trans h1, fun v hv => ?_⟩
    rcases List.mem_cons.mp hv with rfl | hv
    · exact (le_max_right _ _).trans h1
    · exact h2 v hv

theorem foldl_min_le (xs : List ℝ) (x : ℝ) : xs.foldl min x ≤ x ∧ ∀ v ∈ xs, xs.foldl min x ≤ v := by
  induction xs generalizing x with
  | nil => simp
  | cons a xs ih =>
    obtain ⟨h1, h2⟩ := ih (min x a)
    refine ⟨h1.trans (min_le_left _ _), fun v hv => ?_⟩
    rcases List.mem_cons.mp hv with rfl | hv
    · exact h1.trans (min_le_right _ _)
    · exact h2 v hv

/-- every bin of a non-constant row is within range -/
theorem bins_range {a : List ℝ} {n : ℕ} (hn : 0 < n) (hne : ∃ u ∈ a, ∃ v ∈ a, u ≠ v) :
    ∃ ab, bins a n true = some ab ∧ ab.length = a.length ∧ ∀ i ∈ ab, 0 ≤ i ∧ i < n := by
  cases a with
  | nil => obtain ⟨u, hu, -⟩ := hne; simp at hu
  | cons x xs =>
    have hmn : ∀ v ∈ x :: xs, xs.foldl min x ≤ v := by
      intro v hv
      rcases List.mem_cons.mp hv with rfl | hv
      · exact (foldl_min_le xs v).1
      · exact (foldl_min_le xs x).2 v hv
    have hmx : ∀ v ∈ x :: xs, v ≤ xs.foldl max x := by
      intro v hv
      rcases List.mem_cons.mp hv with rfl | hv
      · exact (foldl_max_le xs v).1
      · exact (foldl_max_le xs x).2 v hv
    have hlt : xs.foldl min x < xs.foldl max x := by
      obtain ⟨u, hu, v, hv, huv⟩ := hne
      rcases lt_or_gt_of_ne huv with h | h
      · exact lt_of_le_of_lt (hmn u hu) (lt_of_lt_of_le h (hmx v hv))
      · exact lt_of_le_of_lt (hmn v hv) (lt_of_lt_of_le h (hmx u hu))
    have hd : 0 < xs.foldl max x - xs.foldl min x := by linarith
    refine ⟨(x :: xs).map fun v : ℝ =>
      trunc ((v - xs.foldl min x) / (xs.foldl max x - xs.foldl min x) * n * 0.999999), ?_, by simp, ?_⟩
    · unfold bins minOf maxOf
      simp only [Option.bind_some, if_true]
      rw [if_neg hlt.ne']
    · intro i hi
      obtain ⟨v, hv, rfl⟩ := List.mem_map.mp hi
      have h0 : 0 ≤ (v - xs.foldl min x) / (xs.foldl max x - xs.foldl min x) :=
        div_nonneg (by linarith [hmn v hv]) hd.le
      have h1 : (v - xs.foldl min x) / (xs.foldl max x - xs.foldl min x) ≤ 1 := by
        rw [div_le_one hd]; linarith [hmx v hv]
      have hn' : (0 : ℝ) < n := by exact_mod_cast hn
      have p0 : 0 ≤ (v - xs.foldl min x) / (xs.foldl max x - xs.foldl min x) * n * 0.999999 := by positivity
      unfold trunc
      rw [if_pos p0]
      refine ⟨Int.floor_nonneg.mpr p0, ?_⟩
      rw [Int.floor_lt]
      push_cast
      have : (v - xs.foldl min x) / (xs.foldl max x - xs.foldl min x) * n ≤ 1 * n :=
        mul_le_mul_of_nonneg_right h1 hn'.le
      calc _ ≤ 1 * (n : ℝ) * 0.999999 := mul_le_mul_of_nonneg_right this (by norm_num)
        _ < n := by linarith

theorem joint_range {n : ℕ} {ab bb : List ℤ} (ha : ∀ i ∈ ab, 0 ≤ i ∧ i < (n : ℤ)) (hb : ∀ i ∈ bb, 0 ≤ i ∧ i < (n : ℤ)) :
    ∀ k ∈ jointBins ab bb n, 0 ≤ k ∧ k < ((n * n : ℕ) : ℤ) := by
  intro k hk
  unfold jointBins at hk
  rw [← List.map_uncurry_zip_eq_zipWith] at hk
  obtain ⟨⟨i, j⟩, hp, rfl⟩ := List.mem_map.mp hk
  obtain ⟨h1, h2⟩ := List.of_mem_zip hp
  obtain ⟨i0, i1⟩ := ha i h1
  obtain ⟨j0, j1⟩ := hb j h2
  simp only [Function.uncurry]
  have a : 0 ≤ i * ((n : ℤ) - 1) := Int.mul_nonneg i0 (by omega)
  have b : i * ((n : ℤ) - 1) ≤ ((n : ℤ) - 1) * ((n : ℤ) - 1) := Int.mul_le_mul_of_nonneg_right (by omega) (by omega)
  have c : ((n : ℤ) - 1) * ((n : ℤ) - 1) + (n : ℤ) ≤ (n : ℤ) * n := by
    have : 0 < (n : ℤ) := by omega
    have e : (n : ℤ) * n - (((n : ℤ) - 1) * ((n : ℤ) - 1) + (n : ℤ)) = n - 1 := by ring
    omega
  push_cast
  constructor <;> omega

theorem count_sum (size : ℕ) (idx : List ℤ) (h : ∀ i ∈ idx, 0 ≤ i ∧ i < (size : ℤ)) :
    ∑ k ∈ range size, idx.count (k : ℤ) = idx.length := by
  induction idx with
  | nil => simp
  | cons a L ih =>
    obtain ⟨h1, h2⟩ := h a List.mem_cons_self
    have := ih fun i hi => h i (List.mem_cons_of_mem _ hi)
    simp only [List.count_cons, sum_add_distrib, this, List.length_cons]
    congr 1
    have e : ∀ k ∈ range size, (if (a == (k : ℤ)) = true then 1 else 0) = if a.toNat = k then 1 else 0 := by
      intro k _
      by_cases g : a = (k : ℤ)
      · have : a.toNat = k := by omega
        simp [g]
      · have : ¬ a.toNat = k := by omega
        simp [g, this]
    rw [sum_congr rfl e, sum_ite_eq, if_pos]
    rw [mem_range]; omega

/-- C37 (mutual_information): on two non-constant rows of the same length the function never fails, the joint histogram it
builds has one count per pixel, and so have the two individual ones. -/
theorem C37_mi_total (a b : List ℝ) (n : ℕ) (hn : 0 < n) (hl : a.length = b.length)
    (ha : ∃ u ∈ a, ∃ v ∈ a, u ≠ v) (hb : ∃ u ∈ b, ∃ v ∈ b, u ≠ v) :
    (mutualInformation a b n true).isSome ∧
    ∃ ab bb hj, bins a n true = some ab ∧ bins b n true = some bb ∧
      scatterCount (n * n) (jointBins ab bb n) = some hj ∧
      ∑ k ∈ range (n * n), hj k = a.length ∧ ∑ k ∈ range n, ab.count (k : ℤ) = a.length ∧
      ∑ k ∈ range n, bb.count (k : ℤ) = a.length := by
  obtain ⟨ab, ea, la, ra⟩ := bins_range hn ha
  obtain ⟨bb, eb, lb, rb⟩ := bins_range hn hb
  have rj := joint_range ra rb
  have ej : scatterCount (n * n) (jointBins ab bb n) = some fun k : ℕ => (jointBins ab bb n).count (k : ℤ) := if_pos rj
  constructor
  · unfold mutualInformation
    rw [if_pos hl, ea, eb]
    simp only [Option.bind_some]
    rw [ej]
    simp only [Option.bind_some]
    rw [scatterCount, if_pos ra, scatterCount, if_pos rb]
    rfl
  · refine ⟨ab, bb, _, ea, eb, ej, ?_, ?_, ?_⟩
    · rw [count_sum _ _ rj, jointBins, List.length_zipWith, la, lb, hl, min_self]
    · rw [count_sum _ _ ra, la]
    · rw [count_sum _ _ rb, lb, hl]

example : (mutualInformation [0, 1] [1, 0] 2 true).isSome :=
  (C37_mi_total [0, 1] [1, 0] 2 (by norm_num) rfl ⟨0, by simp, 1, by simp, by norm_num⟩ ⟨0, by simp, 1, by simp, by norm_num⟩).1

theorem bins01 : bins [0, 1] 2 true = some [0, 1] := by
  unfold bins minOf maxOf
  simp only [List.foldl, Option.bind_some, if_true]
  have e1 : trunc (((0 : ℝ) - min 0 1) / (max 0 1 - min 0 1) * ((2 : ℕ) : ℝ) * 0.999999) = 0 := by
    unfold trunc; rw [if_pos (by norm_num), Int.floor_eq_iff]; norm_num
  have e2 : trunc (((1 : ℝ) - min 0 1) / (max 0 1 - min 0 1) * ((2 : ℕ) : ℝ) * 0.999999) = 1 := by
    unfold trunc; rw [if_pos (by norm_num), Int.floor_eq_iff]; norm_num
  rw [if_neg (by norm_num)]
  simp only [List.map_cons, List.map_nil, e1, e2]

theorem bins10 : bins [1, 0] 2 true = some [1, 0] := by
  unfold bins minOf maxOf
  simp only [List.foldl, Option.bind_some, if_true]
  have e1 : trunc (((0 : ℝ) - min 1 0) / (max 1 0 - min 1 0) * ((2 : ℕ) : ℝ) * 0.999999) = 0 := by
    unfold trunc; rw [if_pos (by norm_num), Int.floor_eq_iff]; norm_num
  have e2 : trunc (((1 : ℝ) - min 1 0) / (max 1 0 - min 1 0) * ((2 : ℕ) : ℝ) * 0.999999) = 1 := by
    unfold trunc; rw [if_pos (by norm_num), Int.floor_eq_iff]; norm_num
  rw [if_neg (by norm_num)]
  simp only [List.map_cons, List.map_nil, e1, e2]

/-- C37 violation (mutual_information): with two bins the images `[0, 1]` and `[1, 0]`, whose pixels are all in different
bins, get a mutual information of `2 log 2`: twice the entropy of either image, which no pair of two-bin images can have.
The same image against itself gives `log 2`. -/
theorem C37_joint_bin_fails :
    mutualInformation [0, 1] [1, 0] 2 true = some (2 * log 2) ∧
    mutualInformation [0, 1] [0, 1] 2 true = some (log 2) := by
  have hl : log ((1 : ℝ) / 2) = -log 2 := by rw [one_div, log_inv]
  have hl' : log ((2 : ℝ)⁻¹) = -log 2 := log_inv 2
  constructor
  · unfold mutualInformation
    rw [if_pos (by simp), bins01, bins10]
    simp only [Option.bind_some, jointBins, List.zipWith_cons_cons, List.zipWith_nil_right]
    rw [scatterCount, if_pos (by norm_num), scatterCount, if_pos (by norm_num), scatterCount, if_pos (by norm_num)]
    simp only [Option.bind_some, Option.map_some, Option.some.injEq, entropy, normalise, sum_range_succ, sum_range_zero]
    norm_num
    rw [hl]; ring
  · unfold mutualInformation
    rw [if_pos (by simp), bins01]
    simp only [Option.bind_some, jointBins, List.zipWith_cons_cons, List.zipWith_nil_right]
    rw [scatterCount, if_pos (by norm_num), scatterCount, if_pos (by norm_num)]
    simp only [Option.bind_some, Option.map_some, Option.some.injEq, entropy, normalise, sum_range_succ, sum_range_zero]
    norm_num
    rw [hl]; ring

end Verif.MI
