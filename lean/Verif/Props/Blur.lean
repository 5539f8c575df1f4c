import Verif.Model.Blur
import Mathlib.Algebra.Order.BigOperators.Group.Finset
import Mathlib.Algebra.BigOperators.Ring.Finset
import Mathlib.Algebra.BigOperators.Field
import Mathlib.Tactic.Linarith
import Mathlib.Tactic.Ring
import Mathlib.Tactic.Positivity
import Mathlib.Tactic.FieldSimp
import Mathlib.Tactic.NormNum
/-!
C64: `GaussianBlur2d` (preprocessing/resampling.py): the kernel, the shape of the result and its pixels.
-/
namespace Verif.Blur
open Finset

/-- Specification: the pixel of the reflected extension of an image (mirror without repeating the border) at a
possibly negative or too large row or column, as long as it is within one image size. -/
def mirror (n : ℕ) (i : ℤ) : ℕ := if i < 0 then (-i).toNat else if i < n then i.toNat else (2 * ((n : ℤ) - 1) - i).toNat

/-- Specification: radius of the kernel, `cutoff * sigma` rounded to the nearest integer (half up). -/
noncomputable def radius (sigma : ℝ) (cutoff : ℤ) : ℕ := ⌊(cutoff : ℝ) * sigma + 1 / 2⌋.toNat

/-- Specification: normaliser of the sampled Gaussian of radius `r`. -/
noncomputable def mass (sigma : ℝ) (r : ℕ) : ℝ :=
  ∑ a ∈ range (2 * r + 1), ∑ b ∈ range (2 * r + 1),
    Real.exp (-(((a : ℝ) - r) ^ 2 + ((b : ℝ) - r) ^ 2) / (2 * sigma ^ 2))

theorem kernelSize_floor (sigma : ℝ) (cutoff : ℤ) :
    ⌊kernelSize sigma cutoff / 2⌋ = ⌊(cutoff : ℝ) * sigma + 1 / 2⌋ ∧
      ⌊-kernelSize sigma cutoff / 2⌋ = -⌊(cutoff : ℝ) * sigma + 1 / 2⌋ - 1 := by
  unfold kernelSize
  simp only
  by_cases h : ∃ m : ℤ, 2 * (cutoff : ℝ) * sigma + 1 = 2 * m
  · rw [if_pos h]
    obtain ⟨m, hm⟩ := h
    have e : (cutoff : ℝ) * sigma + 1 / 2 = m := by linarith
    rw [hm, e, Int.floor_intCast]
    constructor
    · rw [Int.floor_eq_iff]; constructor <;> linarith
    · rw [Int.floor_eq_iff]; push_cast; constructor <;> linarith
  · rw [if_neg h]
    refine ⟨by congr 1; ring, ?_⟩
    set t := (cutoff : ℝ) * sigma + 1 / 2 with ht
    have e : -(2 * (cutoff : ℝ) * sigma + 1) / 2 = -t := by rw [ht]; ring
    rw [e, Int.floor_eq_iff]
    push_cast
    have h1 := Int.floor_le t
    have h2 := Int.lt_floor_add_one t
    refine ⟨by linarith, ?_⟩
    have : (⌊t⌋ : ℝ) ≠ t := fun h' => h ⟨⌊t⌋, by rw [h', ht]; ring⟩
    have := lt_of_le_of_ne h1 this
    linarith

theorem radius_cast {sigma : ℝ} {cutoff : ℤ} (hs : 0 < sigma) (hc : 0 ≤ cutoff) :
    ((radius sigma cutoff : ℕ) : ℤ) = ⌊(cutoff : ℝ) * sigma + 1 / 2⌋ := by
  have : (0 : ℝ) ≤ (cutoff : ℝ) * sigma := mul_nonneg (by exact_mod_cast hc) hs.le
  have : 0 ≤ ⌊(cutoff : ℝ) * sigma + 1 / 2⌋ := Int.floor_nonneg.mpr (by linarith)
  unfold radius; omega

theorem coords_eq {sigma : ℝ} {cutoff : ℤ} (hs : 0 < sigma) (hc : 0 ≤ cutoff) :
    (coords (kernelSize sigma cutoff)).length = 2 * radius sigma cutoff + 1 ∧
      ∀ a < 2 * radius sigma cutoff + 1, (coords (kernelSize sigma cutoff)).getD a 0 = (a : ℤ) - radius sigma cutoff := by
  obtain ⟨h1, h2⟩ := kernelSize_floor sigma cutoff
  have hr := radius_cast hs hc
  unfold coords
  rw [h1, h2, ← hr]
  have e : ((radius sigma cutoff : ℤ) + 1 - (-(radius sigma cutoff : ℤ) - 1 + 1)).toNat = 2 * radius sigma cutoff + 1 := by
    omega
  simp only [e]
  refine ⟨by simp, fun a ha => ?_⟩
  rw [List.getD_eq_getElem?_getD]
  rw [List.getElem?_map, List.getElem?_range ha]
  simp only [Option.map_some, Option.getD_some]
  ring

theorem kernel_eq {sigma : ℝ} {cutoff : ℤ} (hs : 0 < sigma) (hc : 0 ≤ cutoff) :
    (kernel sigma cutoff).h = 2 * radius sigma cutoff + 1 ∧ (kernel sigma cutoff).w = 2 * radius sigma cutoff + 1 ∧
      ∀ a < 2 * radius sigma cutoff + 1, ∀ b < 2 * radius sigma cutoff + 1,
        (kernel sigma cutoff).px a b =
          Real.exp (-(((a : ℝ) - radius sigma cutoff) ^ 2 + ((b : ℝ) - radius sigma cutoff) ^ 2) / (2 * sigma ^ 2)) /
            mass sigma (radius sigma cutoff) := by
  obtain ⟨h1, h2⟩ := coords_eq hs hc
  refine ⟨h1, h1, fun a ha b hb => ?_⟩
  have key : ∀ a < 2 * radius sigma cutoff + 1, ∀ b < 2 * radius sigma cutoff + 1,
      gauss sigma ((coords (kernelSize sigma cutoff)).getD a 0) ((coords (kernelSize sigma cutoff)).getD b 0) =
        Real.exp (-(((a : ℝ) - radius sigma cutoff) ^ 2 + ((b : ℝ) - radius sigma cutoff) ^ 2) / (2 * sigma ^ 2)) := by
    intro a ha b hb
    rw [h2 a ha, h2 b hb]; unfold gauss; push_cast; rfl
  unfold kernel
  simp only [h1]
  rw [key a ha b hb]
  congr 1
  unfold mass
  refine sum_congr rfl fun a ha => sum_congr rfl fun b hb => ?_
  rw [key a (mem_range.mp ha) b (mem_range.mp hb)]

theorem mass_pos (sigma : ℝ) (r : ℕ) : 0 < mass sigma r := by
  unfold mass
  refine sum_pos (fun a _ => sum_pos (fun b _ => Real.exp_pos _) ?_) ?_ <;> simp

theorem kernel_sum {sigma : ℝ} {cutoff : ℤ} (hs : 0 < sigma) (hc : 0 ≤ cutoff) :
    ∑ a ∈ range (2 * radius sigma cutoff + 1), ∑ b ∈ range (2 * radius sigma cutoff + 1), (kernel sigma cutoff).px a b = 1 := by
  obtain ⟨-, -, hk⟩ := kernel_eq hs hc
  have : ∀ a ∈ range (2 * radius sigma cutoff + 1), ∑ b ∈ range (2 * radius sigma cutoff + 1), (kernel sigma cutoff).px a b =
      (∑ b ∈ range (2 * radius sigma cutoff + 1),
        Real.exp (-(((a : ℝ) - radius sigma cutoff) ^ 2 + ((b : ℝ) - radius sigma cutoff) ^ 2) / (2 * sigma ^ 2))) /
            mass sigma (radius sigma cutoff) := by
    intro a ha
    rw [sum_div]
    exact sum_congr rfl fun b hb => hk a (mem_range.mp ha) b (mem_range.mp hb)
  rw [sum_congr rfl this, ← sum_div]
  exact div_self (mass_pos _ _).ne'

/-- C64: the kernel is square of odd size `2r+1`, `r` being `cutoff * sigma` rounded to the nearest integer; its entries
are the Gaussian centred on the middle entry, positive, and sum to one. -/
theorem C64_kernel (sigma : ℝ) (cutoff : ℤ) (hs : 0 < sigma) (hc : 0 ≤ cutoff) :
    ∃ r : ℕ, |(r : ℝ) - cutoff * sigma| ≤ 1 / 2 ∧
      (kernel sigma cutoff).h = 2 * r + 1 ∧ (kernel sigma cutoff).w = 2 * r + 1 ∧
      (∃ Z : ℝ, 0 < Z ∧ ∀ a < 2 * r + 1, ∀ b < 2 * r + 1,
        (kernel sigma cutoff).px a b = Real.exp (-(((a : ℝ) - r) ^ 2 + ((b : ℝ) - r) ^ 2) / (2 * sigma ^ 2)) / Z) ∧
      (∀ a < 2 * r + 1, ∀ b < 2 * r + 1, 0 < (kernel sigma cutoff).px a b) ∧
      ∑ a ∈ range (2 * r + 1), ∑ b ∈ range (2 * r + 1), (kernel sigma cutoff).px a b = 1 := by
  obtain ⟨h1, h2, hk⟩ := kernel_eq hs hc
  refine ⟨radius sigma cutoff, ?_, h1, h2, ⟨_, mass_pos _ _, hk⟩, ?_, kernel_sum hs hc⟩
  · have hr : ((radius sigma cutoff : ℕ) : ℝ) = ((⌊(cutoff : ℝ) * sigma + 1 / 2⌋ : ℤ) : ℝ) := by
      exact_mod_cast radius_cast hs hc
    have a := Int.floor_le ((cutoff : ℝ) * sigma + 1 / 2)
    have b := Int.lt_floor_add_one ((cutoff : ℝ) * sigma + 1 / 2)
    rw [hr, abs_le]
    constructor <;> linarith
  · intro a ha b hb
    rw [hk a ha b hb]
    exact div_pos (Real.exp_pos _) (mass_pos _ _)

example : ∃ r : ℕ, (kernel (2 / 3) 3).h = 2 * r + 1 ∧ |(r : ℝ) - (3 : ℤ) * (2 / 3)| ≤ 1 / 2 := by
  obtain ⟨r, h, h', -⟩ := C64_kernel (2 / 3) 3 (by norm_num) (by norm_num)
  exact ⟨r, h', h⟩

/-- rows (columns) returned for `n` rows (columns) -/
def outSize (n : ℕ) : ℕ := if n % 2 = 0 then n else n - 1

theorem reflect_mirror {n r i : ℕ} {a : ℕ} (ha : i + a < n + (2 * r + 1)) (hr : r < n) :
    reflectIdx n r (i + a) = mirror n ((i : ℤ) + ((a : ℤ) - r)) := by
  unfold reflectIdx mirror
  split_ifs <;> omega

/-- C64 (reflect padding): the blur succeeds exactly when the padding fits; the returned image has an even number of rows
and of columns, equal to the input's when that is even and one less when it is odd (the last row or column is lost); each
returned pixel is the average, with the kernel's weights, of the mirrored input around the *same* pixel.  Missing from
the English claim: shape preservation for odd sizes, which is false (`C64_shape_fails`). -/
theorem C64_reflect_partial (sigma : ℝ) (cutoff : ℤ) (hs : 0 < sigma) (hc : 0 ≤ cutoff) (x : Img) :
    let r := radius sigma cutoff
    ((blur sigma cutoff true x).isSome ↔
      r < x.h ∧ r < x.w ∧ (x.h % 2 = 0 → r + 1 < x.h) ∧ (x.w % 2 = 0 → r + 1 < x.w)) ∧
    ∀ y, blur sigma cutoff true x = some y →
      y.h = outSize x.h ∧ y.w = outSize x.w ∧
      (x.h % 2 = 0 ∧ x.w % 2 = 0 → y.h = x.h ∧ y.w = x.w) ∧
      ∀ i < y.h, ∀ j < y.w, y.px i j =
        ∑ a ∈ range (2 * r + 1), ∑ b ∈ range (2 * r + 1),
          Real.exp (-(((a : ℝ) - r) ^ 2 + ((b : ℝ) - r) ^ 2) / (2 * sigma ^ 2)) / mass sigma r *
            x.px (mirror x.h ((i : ℤ) + ((a : ℤ) - r))) (mirror x.w ((j : ℤ) + ((b : ℤ) - r))) := by
  intro r
  obtain ⟨h1, h2, hk⟩ := kernel_eq hs hc
  have hk2 : (2 * r + 1) / 2 = r := by omega
  change (kernel sigma cutoff).h = 2 * r + 1 at h1
  change (kernel sigma cutoff).w = 2 * r + 1 at h2
  by_cases hp : r < x.w ∧ r + (if x.w % 2 = 0 then 1 else 0) < x.w ∧ r < x.h ∧ r + (if x.h % 2 = 0 then 1 else 0) < x.h
  · have e : blur sigma cutoff true x = some (crop ⟨x.h + (if x.h % 2 = 0 then 1 else 0), x.w + (if x.w % 2 = 0 then 1 else 0),
        fun i j => ∑ a ∈ range (2 * r + 1), ∑ b ∈ range (2 * r + 1), (kernel sigma cutoff).px a b *
          x.px (reflectIdx x.h r (i + a)) (reflectIdx x.w r (j + b))⟩) := by
      unfold blur
      simp only [padding, h2, hk2, pad, if_true]
      rw [if_pos hp]
      simp only [Option.bind_some, conv2d, h1, h2]
      rw [if_pos (by omega)]
      simp only [Option.map_some]
      congr 3 <;> omega
    rw [e]
    refine ⟨?_, ?_⟩
    · simp only [Option.isSome_some, true_iff]
      split_ifs at hp <;> omega
    · rintro y ⟨⟩
      have eh : (x.h + if x.h % 2 = 0 then 1 else 0) % 2 = 1 := by split_ifs <;> omega
      have ew : (x.w + if x.w % 2 = 0 then 1 else 0) % 2 = 1 := by split_ifs <;> omega
      have eh' : (crop ⟨x.h + (if x.h % 2 = 0 then 1 else 0), x.w + (if x.w % 2 = 0 then 1 else 0),
        fun i j => ∑ a ∈ range (2 * r + 1), ∑ b ∈ range (2 * r + 1), (kernel sigma cutoff).px a b *
          x.px (reflectIdx x.h r (i + a)) (reflectIdx x.w r (j + b))⟩).h = outSize x.h := by
        simp only [crop, outSize]
        rw [if_neg (by omega : ¬ (x.h + if x.h % 2 = 0 then 1 else 0) % 2 = 0)]
        by_cases g : x.h % 2 = 0
        · rw [if_pos g, if_pos g]; omega
        · rw [if_neg g, if_neg g]; omega
      have ew' : (crop ⟨x.h + (if x.h % 2 = 0 then 1 else 0), x.w + (if x.w % 2 = 0 then 1 else 0),
        fun i j => ∑ a ∈ range (2 * r + 1), ∑ b ∈ range (2 * r + 1), (kernel sigma cutoff).px a b *
          x.px (reflectIdx x.h r (i + a)) (reflectIdx x.w r (j + b))⟩).w = outSize x.w := by
        simp only [crop, outSize]
        rw [if_neg (by omega : ¬ (x.w + if x.w % 2 = 0 then 1 else 0) % 2 = 0)]
        by_cases g : x.w % 2 = 0
        · rw [if_pos g, if_pos g]; omega
        · rw [if_neg g, if_neg g]; omega
      refine ⟨eh', ew', ?_, ?_⟩
      · rintro ⟨g1, g2⟩
        rw [eh', ew']
        simp [outSize, g1, g2]
      · intro i hi j hj
        rw [eh'] at hi
        rw [ew'] at hj
        have hih : i < x.h := by unfold outSize at hi; split_ifs at hi <;> omega
        have hjw : j < x.w := by unfold outSize at hj; split_ifs at hj <;> omega
        simp only [crop]
        refine sum_congr rfl fun a ha => sum_congr rfl fun b hb => ?_
        rw [mem_range] at ha hb
        rw [hk a ha b hb, reflect_mirror (by omega) hp.2.2.1, reflect_mirror (by omega) hp.1]
  · have e : blur sigma cutoff true x = none := by
      unfold blur
      simp only [padding, h2, hk2, pad, if_true]
      rw [if_neg hp]
      rfl
    rw [e]
    refine ⟨?_, fun y hy => absurd hy (by simp)⟩
    simp only [Option.isSome_none, Bool.false_eq_true, false_iff]
    intro hh
    apply hp
    split_ifs <;> omega

/-- C64 (zero padding, `reflect_padding=False`): the blur always succeeds, returns an image of the same shape as with
reflect padding, and each pixel is the kernel-weighted sum of the input around the same pixel, zero outside the input.
Missing: the shape for odd sizes, as in `C64_reflect_partial`. -/
theorem C64_zero_pad_partial (sigma : ℝ) (cutoff : ℤ) (hs : 0 < sigma) (hc : 0 ≤ cutoff) (x : Img) :
    let r := radius sigma cutoff
    ∃ y, blur sigma cutoff false x = some y ∧ y.h = outSize x.h ∧ y.w = outSize x.w ∧
      ∀ i < y.h, ∀ j < y.w, y.px i j =
        ∑ a ∈ range (2 * r + 1), ∑ b ∈ range (2 * r + 1),
          Real.exp (-(((a : ℝ) - r) ^ 2 + ((b : ℝ) - r) ^ 2) / (2 * sigma ^ 2)) / mass sigma r *
            (if r ≤ i + a ∧ i + a < x.h + r ∧ r ≤ j + b ∧ j + b < x.w + r then x.px (i + a - r) (j + b - r) else 0) := by
  intro r
  obtain ⟨h1, h2, hk⟩ := kernel_eq hs hc
  have hk2 : (2 * r + 1) / 2 = r := by omega
  change (kernel sigma cutoff).h = 2 * r + 1 at h1
  change (kernel sigma cutoff).w = 2 * r + 1 at h2
  have e : blur sigma cutoff false x = some (crop ⟨x.h + (if x.h % 2 = 0 then 1 else 0), x.w + (if x.w % 2 = 0 then 1 else 0),
        fun i j => ∑ a ∈ range (2 * r + 1), ∑ b ∈ range (2 * r + 1), (kernel sigma cutoff).px a b *
          (if r ≤ i + a ∧ i + a - r < x.h ∧ r ≤ j + b ∧ j + b - r < x.w then x.px (i + a - r) (j + b - r) else 0)⟩) := by
      unfold blur
      simp only [padding, h2, hk2, pad, if_false, Bool.false_eq_true]
      simp only [Option.bind_some, conv2d, h1, h2]
      rw [if_pos (by split_ifs <;> omega)]
      simp only [Option.map_some]
      congr 3 <;> (split_ifs <;> omega)
  refine ⟨_, e, ?_, ?_, ?_⟩
  · simp only [crop, outSize]
    by_cases g : x.h % 2 = 0
    · rw [if_pos g, if_neg (by omega), if_pos g]; omega
    · rw [if_neg g, if_neg (by omega), if_neg g]; omega
  · simp only [crop, outSize]
    by_cases g : x.w % 2 = 0
    · rw [if_pos g, if_neg (by omega), if_pos g]; omega
    · rw [if_neg g, if_neg (by omega), if_neg g]; omega
  · intro i hi j hj
    simp only [crop]
    refine sum_congr rfl fun a ha => sum_congr rfl fun b hb => ?_
    rw [mem_range] at ha hb
    rw [hk a ha b hb]
    congr 1
    refine if_congr ?_ rfl rfl
    omega

theorem mirror_lt {n : ℕ} {i : ℤ} (h1 : -(n : ℤ) < i) (h2 : i < 2 * (n : ℤ) - 1) : mirror n i < n := by
  unfold mirror; split_ifs <;> omega

theorem sum2_mul_const (n : ℕ) (f : ℕ → ℕ → ℝ) (c : ℝ) :
    ∑ a ∈ range n, ∑ b ∈ range n, f a b * c = (∑ a ∈ range n, ∑ b ∈ range n, f a b) * c := by
  rw [sum_mul]
  exact sum_congr rfl fun a _ => (sum_mul ..).symm

theorem mass_sum (sigma : ℝ) (r : ℕ) : ∑ a ∈ range (2 * r + 1), ∑ b ∈ range (2 * r + 1),
      Real.exp (-(((a : ℝ) - r) ^ 2 + ((b : ℝ) - r) ^ 2) / (2 * sigma ^ 2)) / mass sigma r = 1 := by
  have : ∀ a ∈ range (2 * r + 1), ∑ b ∈ range (2 * r + 1),
      Real.exp (-(((a : ℝ) - r) ^ 2 + ((b : ℝ) - r) ^ 2) / (2 * sigma ^ 2)) / mass sigma r =
      (∑ b ∈ range (2 * r + 1), Real.exp (-(((a : ℝ) - r) ^ 2 + ((b : ℝ) - r) ^ 2) / (2 * sigma ^ 2))) / mass sigma r :=
    fun a _ => (sum_div _ _ _).symm
  rw [sum_congr rfl this, ← sum_div]
  exact div_self (mass_pos _ _).ne'

/-- C64: blurring (reflect padding) never leaves the range of grey levels of the input; in particular a constant image
stays constant. -/
theorem C64_range (sigma : ℝ) (cutoff : ℤ) (hs : 0 < sigma) (hc : 0 ≤ cutoff) (x y : Img) (lo hi : ℝ)
    (hx : ∀ i < x.h, ∀ j < x.w, lo ≤ x.px i j ∧ x.px i j ≤ hi) (hy : blur sigma cutoff true x = some y) :
    ∀ i < y.h, ∀ j < y.w, lo ≤ y.px i j ∧ y.px i j ≤ hi := by
  obtain ⟨hsome, hval⟩ := C64_reflect_partial sigma cutoff hs hc x
  obtain ⟨r1, r2, r3, r4⟩ := hsome.mp (by rw [hy]; rfl)
  obtain ⟨e1, e2, -, hpx⟩ := hval y hy
  intro i hi' j hj'
  rw [hpx i hi' j hj']
  rw [e1] at hi'; rw [e2] at hj'
  have hih : i < x.h := by unfold outSize at hi'; split_ifs at hi' <;> omega
  have hjw : j < x.w := by unfold outSize at hj'; split_ifs at hj' <;> omega
  set r := radius sigma cutoff
  have hw : ∀ a b : ℕ, 0 ≤ Real.exp (-(((a : ℝ) - r) ^ 2 + ((b : ℝ) - r) ^ 2) / (2 * sigma ^ 2)) / mass sigma r :=
    fun a b => div_nonneg (Real.exp_pos _).le (mass_pos _ _).le
  have hb : ∀ a ∈ range (2 * r + 1), ∀ b ∈ range (2 * r + 1),
      lo ≤ x.px (mirror x.h ((i : ℤ) + ((a : ℤ) - r))) (mirror x.w ((j : ℤ) + ((b : ℤ) - r))) ∧
      x.px (mirror x.h ((i : ℤ) + ((a : ℤ) - r))) (mirror x.w ((j : ℤ) + ((b : ℤ) - r))) ≤ hi := by
    intro a ha b hb
    rw [mem_range] at ha hb
    exact hx _ (mirror_lt (by omega) (by omega)) _ (mirror_lt (by omega) (by omega))
  constructor
  · calc lo = (∑ a ∈ range (2 * r + 1), ∑ b ∈ range (2 * r + 1),
        Real.exp (-(((a : ℝ) - r) ^ 2 + ((b : ℝ) - r) ^ 2) / (2 * sigma ^ 2)) / mass sigma r) * lo := by rw [mass_sum, one_mul]
      _ ≤ _ := by
        rw [← sum2_mul_const]
        exact sum_le_sum fun a ha => sum_le_sum fun b hb' => mul_le_mul_of_nonneg_left (hb a ha b hb').1 (hw a b)
  · have e : hi = (∑ a ∈ range (2 * r + 1), ∑ b ∈ range (2 * r + 1),
        Real.exp (-(((a : ℝ) - r) ^ 2 + ((b : ℝ) - r) ^ 2) / (2 * sigma ^ 2)) / mass sigma r) * hi := by rw [mass_sum, one_mul]
    rw [← sum2_mul_const] at e
    refine le_of_le_of_eq ?_ e.symm
    exact sum_le_sum fun a ha => sum_le_sum fun b hb' => mul_le_mul_of_nonneg_left (hb a ha b hb').2 (hw a b)

/-- C64 violation: whenever the blur of an image with an odd number of rows succeeds, the last row is missing from the
result; and such images exist (here 5 by 5 with `sigma = 2/3` as used by `BlurAndDownsample(2.0)`). -/
theorem C64_shape_fails :
    (∀ (sigma : ℝ) (cutoff : ℤ) (x y : Img), 0 < sigma → 0 ≤ cutoff → x.h % 2 = 1 →
      blur sigma cutoff true x = some y → y.h = x.h - 1 ∧ y.h ≠ x.h) ∧
    (∃ y, blur (2 / 3) 3 true ⟨5, 5, fun _ _ => 1⟩ = some y ∧ y.h = 4 ∧ y.w = 4) := by
  constructor
  · intro sigma cutoff x y hs hc hx hy
    obtain ⟨e1, -⟩ := (C64_reflect_partial sigma cutoff hs hc x).2 y hy
    rw [e1]; unfold outSize; rw [if_neg (by omega)]; omega
  · have hr : radius (2 / 3) 3 = 2 := by
      unfold radius
      have : ⌊((3 : ℤ) : ℝ) * (2 / 3) + 1 / 2⌋ = 2 := by rw [Int.floor_eq_iff]; norm_num
      rw [this]; rfl
    obtain ⟨h, h'⟩ := C64_reflect_partial (2 / 3) 3 (by norm_num) (by norm_num) ⟨5, 5, fun _ _ => 1⟩
    obtain ⟨y, hy⟩ := Option.isSome_iff_exists.mp (h.mpr (by rw [hr]; simp))
    obtain ⟨e1, e2, -⟩ := h' y hy
    exact ⟨y, hy, e1, e2⟩

/-- non-vacuity: an 8 by 6 image keeps its shape. -/
example (f : ℕ → ℕ → ℝ) : ∃ y, blur (2 / 3) 3 true ⟨8, 6, f⟩ = some y ∧ y.h = 8 ∧ y.w = 6 := by
  have hr : radius (2 / 3) 3 = 2 := by
    unfold radius
    have : ⌊((3 : ℤ) : ℝ) * (2 / 3) + 1 / 2⌋ = 2 := by rw [Int.floor_eq_iff]; norm_num
    rw [this]; rfl
  obtain ⟨h, h'⟩ := C64_reflect_partial (2 / 3) 3 (by norm_num) (by norm_num) ⟨8, 6, f⟩
  obtain ⟨y, hy⟩ := Option.isSome_iff_exists.mp (h.mpr (by rw [hr]; simp))
  obtain ⟨e1, e2, -⟩ := h' y hy
  exact ⟨y, hy, by simpa [outSize] using e1, by simpa [outSize] using e2⟩

end Verif.Blur
