import Verif.Props.ShtCc
/-!
C104 for real functions (`rs2cc_`) and C105 (`rs2cc_fast_`).
-/
namespace Verif.Sht.Cc
open Verif.Wigner Verif.Wigner.Rep Verif.Spec Verif.Fft Verif.Sht Verif.Sht.Rot Finset

theorem pow_sgnC (n : ℕ) : (-1 : ℂ) ^ n = ((sgnPow n : ℝ) : ℂ) := by
  rw [← pow_sgn]; push_cast; rfl

theorem realCoeffs_neg (c : ℕ → ℕ → ℂ) (l : ℕ) (n : ℤ) :
    realCoeffs c l (-n) = ((sgnPow n : ℝ) : ℂ) * (starRingEnd ℂ) (realCoeffs c l n) := by
  unfold realCoeffs
  rcases lt_trichotomy n 0 with h | h | h
  · rw [if_neg (by omega), if_pos (by omega), if_neg (by omega), if_neg (by omega)]
    rw [map_mul, Complex.conj_conj, pow_sgnC, Complex.conj_ofReal, ← mul_assoc, ← Complex.ofReal_mul,
      show sgnPow ((n.natAbs : ℕ) : ℤ) = sgnPow n from sgnPow_congr (by omega), sgnPow_sq]
    simp only [Complex.ofReal_one, one_mul]
    congr 1; omega
  · subst h
    simp [sgnPow]
  · rw [if_neg (by omega), if_neg (by omega), if_neg (by omega), if_pos h, pow_sgnC,
      show sgnPow (((-n).natAbs : ℕ) : ℤ) = sgnPow n from sgnPow_congr (by omega)]
    congr 4; omega

theorem turned_neg (B a b c : ℕ) (g : ℕ → ℤ → ℂ) (l : ℕ) (hg : ∀ n, g l (-n) = ((sgnPow n : ℝ) : ℂ) * (starRingEnd ℂ) (g l n)) (m : ℤ) :
    turned B a b c g l (-m) = ((sgnPow m : ℝ) : ℂ) * (starRingEnd ℂ) (turned B a b c g l m) := by
  unfold turned
  rw [map_sum, mul_sum]
  refine sum_bij' (fun n _ => -n) (fun n _ => -n) ?_ ?_ ?_ ?_ ?_
  · intro n hn; rw [mem_Icc] at hn ⊢; omega
  · intro n hn; rw [mem_Icc] at hn ⊢; omega
  · intro n _; ring
  · intro n _; ring
  · intro n _
    unfold wignerRot
    rw [hg n, map_mul, map_mul, map_mul, map_mul, Complex.conj_conj, Complex.conj_ofReal, Complex.conj_ofReal, ← Complex.exp_conj, ← Complex.exp_conj]
    simp only [map_mul, map_neg, Complex.conj_ofReal, Complex.conj_I, map_intCast]
    have h1 : wignerD l (-m) n (Real.pi - angle B b) = sgnPow (m + n) * wignerD l m (-n) (Real.pi - angle B b) := by
      have := wignerD_neg l m (-n) (Real.pi - angle B b)
      rw [neg_neg] at this
      rw [this, wignerD_swap l m (-n)]
      congr 2; ring
    have h2 : sgnPow (m + n) = sgnPow m * sgnPow n := (sgnPow_add m n).symm
    rw [h1, h2]
    have e1 : Complex.exp (-(((-m : ℤ) : ℂ) * ((angle B a - Real.pi / 2 : ℝ) : ℂ)) * Complex.I) =
        Complex.exp (-((m : ℂ) * ((angle B a - Real.pi / 2 : ℝ) : ℂ)) * -Complex.I) := by
      congr 1; push_cast; ring
    have e2 : Complex.exp (-((n : ℂ) * ((angle B c - Real.pi / 2 : ℝ) : ℂ)) * Complex.I) =
        Complex.exp (-(((-n : ℤ) : ℂ) * ((angle B c - Real.pi / 2 : ℝ) : ℂ)) * -Complex.I) := by
      congr 1; push_cast; ring
    rw [e1, e2]
    push_cast
    ring

/-- The inner product of two real functions, by orders. -/
theorem inner_real (B a b c : ℕ) (f g : ℕ → ℕ → ℂ) :
    sphInner B (realCoeffs fun l v => f v l) (turned B a b c (realCoeffs fun l v => g v l)) =
      ((∑ l ∈ range B, ∑ v ∈ range (l + 1), twice v * (f v l * (starRingEnd ℂ) (turned B a b c (realCoeffs fun l v => g v l) l v)).re : ℝ) : ℂ) := by
  unfold sphInner
  rw [Complex.ofReal_sum]
  apply sum_congr rfl
  intro l _
  have hneg := turned_neg B a b c (realCoeffs fun l v => g v l) l (fun n => realCoeffs_neg _ l n)
  have him : (turned B a b c (realCoeffs fun l v => g v l) l 0).im = 0 := by
    have := hneg 0
    rw [neg_zero, show sgnPow 0 = 1 by simp [sgnPow], Complex.ofReal_one, one_mul] at this
    exact Complex.conj_eq_iff_im.1 this.symm
  rw [herm_sum l]
  · congr 1
    apply sum_congr rfl
    intro v _
    congr 1
    unfold realCoeffs
    by_cases hv : v = 0
    · subst hv
      rw [if_pos (by rfl), Complex.mul_re, Complex.mul_re, Complex.conj_im]
      unfold realCoeffs at him
      push_cast
      rw [him]
      simp
    · rw [if_neg (by omega), if_pos (by omega)]
      rfl
  · rw [Complex.mul_im, Complex.conj_im, him]
    unfold realCoeffs
    simp
  · intro m _
    rw [hneg m, realCoeffs_neg, map_mul, map_mul, Complex.conj_conj, Complex.conj_ofReal]
    have h := sgnPow_sq m
    have h' : ((sgnPow m : ℝ) : ℂ) * ((sgnPow m : ℝ) : ℂ) = 1 := by rw [← Complex.ofReal_mul, h, Complex.ofReal_one]
    linear_combination ((starRingEnd ℂ) (realCoeffs (fun l v => f v l) l m) * turned B a b c (realCoeffs fun l v => g v l) l m) * h'

theorem gAll_eq (B : ℕ) (hB : 0 < B) (g : ℕ → ℕ → ℂ) (l : ℕ) (hg : (g 0 l).im = 0) (q : ℕ) :
    gAll B g q l = (starRingEnd ℂ) (realCoeffs (fun l v => g v l) l ((q : ℤ) - ((B - 1 : ℕ) : ℤ))) := by
  unfold gAll realCoeffs
  rcases lt_trichotomy q (B - 1) with h | h | h
  · rw [if_neg (by omega), if_neg (by omega), if_neg (by omega), map_mul, Complex.conj_conj, map_pow, map_neg, map_one, mul_comm,
      show ((q : ℤ) - ((B - 1 : ℕ) : ℤ)).natAbs = B - 1 - q by omega]
  · subst h
    rw [if_pos le_rfl, if_pos (by simp), Nat.sub_self]
    congr 1
    apply Complex.ext <;> simp [hg]
  · rw [if_pos (by omega), if_neg (by omega), if_pos (by omega)]
    congr 2
    omega

theorem specR_inv {L B : ℕ} {t : Table ℝ} (hB : 0 < B) (ht : wignerEq L = some t) (hL : B ≤ L + 1) (f g : ℕ → ℕ → ℂ)
    (hg : ∀ l, (g 0 l).im = 0) (a b c v : ℕ) :
    invShift (2 * B - 1) (fun j => invShift (2 * B - 1) (fun q => specR B t f g v j q) c) b * cis ((v : ℝ) * a / (2 * B - 1 : ℕ)) =
      ∑ l ∈ range B, if v ≤ l then f v l * (starRingEnd ℂ) (turned B a b c (realCoeffs fun l v => g v l) l v) else 0 := by
  simp only [invShift_eq B hB]
  unfold specR
  simp only [sum_mul]
  have c1 : ∀ j ∈ range (2 * B - 1), ∑ q ∈ range (2 * B - 1), ∑ l ∈ range B,
      (if v ≤ l ∧ |(j : ℤ) - ((B - 1 : ℕ) : ℤ)| ≤ l ∧ |(q : ℤ) - ((B - 1 : ℕ) : ℤ)| ≤ l then
        f v l * gAll B g q l * ((val t l v ((j : ℤ) - ((B - 1 : ℕ) : ℤ))
        * val t l ((j : ℤ) - ((B - 1 : ℕ) : ℤ)) ((q : ℤ) - ((B - 1 : ℕ) : ℤ)) : ℝ) : ℂ) else 0) * cis ((((q : ℤ) - ((B - 1 : ℕ) : ℤ) : ℤ) : ℝ) * c / (2 * B - 1 : ℕ)) *
        cis ((((j : ℤ) - ((B - 1 : ℕ) : ℤ) : ℤ) : ℝ) * b / (2 * B - 1 : ℕ)) * cis ((v : ℝ) * a / (2 * B - 1 : ℕ)) =
      ∑ l ∈ range B, if v ≤ l then (if |(j : ℤ) - ((B - 1 : ℕ) : ℤ)| ≤ l then
        ∑ n ∈ Icc (-(l : ℤ)) l, f v l * (starRingEnd ℂ) (realCoeffs (fun l v => g v l) l n) *
          ((wignerD l ((j : ℤ) - ((B - 1 : ℕ) : ℤ)) v (Real.pi / 2) * wignerD l n ((j : ℤ) - ((B - 1 : ℕ) : ℤ)) (Real.pi / 2) : ℝ) : ℂ) *
          Complex.exp (n * angle B c * Complex.I) * Complex.exp ((((j : ℤ) - ((B - 1 : ℕ) : ℤ) : ℤ) : ℂ) * angle B b * Complex.I) *
          Complex.exp (((v : ℤ) : ℂ) * angle B a * Complex.I) else 0) else 0 := by
    intro j _
    rw [sum_comm]
    apply sum_congr rfl
    intro l hl
    rw [mem_range] at hl
    by_cases hi : v ≤ l
    · by_cases hj : |(j : ℤ) - ((B - 1 : ℕ) : ℤ)| ≤ l
      · rw [if_pos hi, if_pos hj]
        rw [← slice_sum B l hl (fun q => f v l * (starRingEnd ℂ) (realCoeffs (fun l v => g v l) l ((q : ℤ) - ((B - 1 : ℕ) : ℤ))) *
          ((wignerD l ((j : ℤ) - ((B - 1 : ℕ) : ℤ)) v (Real.pi / 2) * wignerD l ((q : ℤ) - ((B - 1 : ℕ) : ℤ)) ((j : ℤ) - ((B - 1 : ℕ) : ℤ)) (Real.pi / 2) : ℝ) : ℂ) *
          Complex.exp ((((q : ℤ) - ((B - 1 : ℕ) : ℤ) : ℤ) : ℂ) * angle B c * Complex.I) * Complex.exp ((((j : ℤ) - ((B - 1 : ℕ) : ℤ) : ℤ) : ℂ) * angle B b * Complex.I) *
          Complex.exp (((v : ℤ) : ℂ) * angle B a * Complex.I)) |>.trans (sum_congr rfl fun n hn => by
            rw [mem_Icc] at hn
            rw [show (((n + ((B - 1 : ℕ) : ℤ)).toNat : ℤ) - ((B - 1 : ℕ) : ℤ)) = n by omega])]
        apply sum_congr rfl
        intro q _
        by_cases hq : |(q : ℤ) - ((B - 1 : ℕ) : ℤ)| ≤ l
        · have hv : |(v : ℤ)| ≤ l := by rw [abs_of_nonneg (by omega)]; omega
          rw [if_pos ⟨hi, hj, hq⟩, if_pos hq, val, val, val_eq ht hL hl hv hj, val_eq ht hL hl hj hq, Option.getD_some, Option.getD_some,
            cis_angle, cis_angle, gAll_eq B hB g l (hg l), show ((v : ℝ)) = (((v : ℤ)) : ℝ) by simp, cis_angle]
        · rw [if_neg (by tauto), if_neg hq]; ring
      · rw [if_pos hi, if_neg hj]
        apply sum_eq_zero; intro q _; rw [if_neg (by tauto)]; ring
    · rw [if_neg hi]
      apply sum_eq_zero; intro q _; rw [if_neg (by tauto)]; ring
  rw [sum_congr rfl c1, sum_comm]
  apply sum_congr rfl
  intro l hl
  rw [mem_range] at hl
  by_cases hi : v ≤ l
  · simp only [if_pos hi]
    rw [slice_sum B l hl (fun j => ∑ n ∈ Icc (-(l : ℤ)) l, f v l * (starRingEnd ℂ) (realCoeffs (fun l v => g v l) l n) *
          ((wignerD l ((j : ℤ) - ((B - 1 : ℕ) : ℤ)) v (Real.pi / 2) * wignerD l n ((j : ℤ) - ((B - 1 : ℕ) : ℤ)) (Real.pi / 2) : ℝ) : ℂ) *
          Complex.exp (n * angle B c * Complex.I) * Complex.exp ((((j : ℤ) - ((B - 1 : ℕ) : ℤ) : ℤ) : ℂ) * angle B b * Complex.I) *
          Complex.exp (((v : ℤ) : ℂ) * angle B a * Complex.I)), sum_comm]
    have := term_eq B a b c (fun l m => f m.toNat l) (realCoeffs fun l v => g v l) l v (by rw [abs_of_nonneg (by omega)]; omega)
    simp only [Int.toNat_natCast] at this
    rw [← this, term, mul_sum]
    apply sum_congr rfl
    intro n _
    simp only [mul_sum, sum_mul, Int.toNat_natCast]
    apply sum_congr rfl
    intro k hk
    rw [mem_Icc] at hk
    rw [show (((k + ((B - 1 : ℕ) : ℤ)).toNat : ℤ) - ((B - 1 : ℕ) : ℤ)) = k by omega]
    ring
  · simp only [if_neg hi, sum_const_zero]

theorem rs2cc_value {L B : ℕ} {t : Table ℝ} (hB : 0 < B) (ht : wignerEq L = some t) (hL : B ≤ L + 1) (f g : ℕ → ℕ → ℂ)
    (hg : ∀ l, (g 0 l).im = 0) (a b c : ℕ) :
    ((invHalf B (fun i => invShift (2 * B - 1) (fun j => invShift (2 * B - 1) (fun q => specR B t f g i j q) c) b) a : ℝ) : ℂ) =
      sphInner B (realCoeffs fun l v => f v l) (turned B a b c (realCoeffs fun l v => g v l)) := by
  rw [inner_real]
  congr 1
  unfold invHalf
  have e : ∀ v ∈ range B, (if v = 0 then (1 : ℝ) else 2) * (invShift (2 * B - 1) (fun j => invShift (2 * B - 1) (fun q => specR B t f g v j q) c) b
      * cis ((v : ℝ) * a / (2 * B - 1 : ℕ))).re = ∑ l ∈ range B, if v ≤ l then twice v * (f v l * (starRingEnd ℂ) (turned B a b c (realCoeffs fun l v => g v l) l v)).re else 0 := by
    intro v _
    rw [specR_inv hB ht hL f g hg, Complex.re_sum, mul_sum]
    apply sum_congr rfl
    intro l _
    unfold twice
    split_ifs <;> simp
  rw [sum_congr rfl e, sum_comm]
  apply sum_congr rfl
  intro l hl
  rw [mem_range] at hl
  rw [sum_le_range l hl]

/-- **C104** (real).  With a table that covers the band limit, `rs2cc_` returns, for every pair of batch elements and every
voxel, the inner product (the integral over the sphere) of the first real function with the second one turned by the rotation of the voxel; the second
function must have real coefficients of order zero, as every real function has. -/
theorem C104_real_correlation (L B : ℕ) (hB : 0 < B) (hL : B ≤ L + 1) : ∃ t, wignerEq L = some t ∧ ∀ f g : Batch,
    (f.b = g.b ∨ f.b = 1 ∨ g.b = 1) → (∀ s l, (g.at_ (if g.b = 1 then 0 else s) 0 l).im = 0) → ∃ vol, rs2cc B f g t = some vol ∧ ∀ s a b c : ℕ,
      ∃ h, IsTurned B (voxelRotation B a b c) (realCoeffs fun l v => g.at_ (if g.b = 1 then 0 else s) v l) h ∧
        (vol s a b c : ℂ) = sphIntegral (sphField B (realCoeffs fun l v => f.at_ (if f.b = 1 then 0 else s) v l)) (sphField B h) := by
  obtain ⟨t, ht, -⟩ := C71_read_half_pi L 0 0 0 (by omega) (by simp) (by simp)
  refine ⟨t, ht, fun f g hb hg => ?_⟩
  unfold rs2cc
  rw [if_neg (by
    rintro (h | h)
    · unfold bad at h; tauto
    · exact h (readable_eq ht hL))]
  exact ⟨_, rfl, fun s a b c => ⟨turned B a b c _, isTurned B a b c _, by
    rw [sphIntegral_eq]; exact rs2cc_value hB ht hL _ _ (hg s) a b c⟩⟩

/-- **C104** (errors).  Batches whose sizes cannot be broadcast are refused by all three functions. -/
theorem C104_refuses (B : ℕ) (f g : Batch) (t : Table ℝ) (d : ℕ → ℕ → ℕ → ℝ) (h : f.b ≠ g.b) (h1 : f.b ≠ 1) (h2 : g.b ≠ 1) :
    cs2cc B f g t = none ∧ rs2cc B f g t = none ∧ rs2ccFast B f g d = none := by
  have hb : bad f g := ⟨h, h1, h2⟩
  unfold cs2cc rs2cc rs2ccFast
  exact ⟨if_pos (Or.inl hb), if_pos (Or.inl hb), if_pos hb⟩

/-! Non-vacuity: two batches, one broadcast. -/
example : ∃ f g : Batch, (f.b = g.b ∨ f.b = 1 ∨ g.b = 1) ∧ (∀ s l, (g.get s 0 l).im = 0) ∧ f.b = 3 ∧ g.at_ 0 1 2 = Complex.I := by
  refine ⟨⟨3, fun _ _ _ => 1⟩, ⟨1, fun _ m _ => if m = 0 then 5 else Complex.I⟩, by simp, fun s l => ?_, rfl, by simp⟩
  simp [Batch.get]

example : ∃ f g : Batch, f.b ≠ g.b ∧ f.b ≠ 1 ∧ g.b ≠ 1 := ⟨⟨3, fun _ _ _ => 1⟩, ⟨2, fun _ _ _ => 1⟩, by simp⟩

/-! ### The fast version -/

/-- With the complete table the fast version's terms are those of the slow one at the non-negative orders. -/
theorem specF_eq {B : ℕ} (t : Table ℝ) (f g : ℕ → ℕ → ℂ) (i j r : ℕ) :
    specF B (fastTable B t) f g i j r = specR B t f g i j (r + (B - 1)) := by
  unfold specF specR
  apply sum_congr rfl
  intro l _
  have h1 : (((i + (B - 1) : ℕ) : ℤ) - ((B - 1 : ℕ) : ℤ)) = i := by omega
  have h2 : (((r + (B - 1) : ℕ) : ℤ) - ((B - 1 : ℕ) : ℤ)) = r := by omega
  unfold fastTable gAll
  rw [h1, h2, if_pos (show B - 1 ≤ r + (B - 1) by omega), Nat.add_sub_cancel]
  have hi' : |(i : ℤ)| ≤ l ↔ i ≤ l := by rw [abs_of_nonneg (by omega)]; omega
  by_cases a : i ≤ l <;> by_cases b : |(j : ℤ) - ((B - 1 : ℕ) : ℤ)| ≤ l <;> by_cases c : |(r : ℤ)| ≤ l <;> simp only [hi', a, b, c, and_true, true_and, and_false, false_and, if_true, if_false] <;> push_cast <;> ring

/-- **C105**, partial.  `rs2cc_fast_` returns the volume of `rs2cc_` when the second function has no coefficients of order above
zero (it is symmetric about the z axis).  Missing: all other functions, see `C105_fast_fails`. -/
theorem C105_fast_partial (B : ℕ) (t : Table ℝ) (ht : readable t B) (f g : Batch)
    (hb : f.b = g.b ∨ f.b = 1 ∨ g.b = 1) (hz : ∀ s n l, 0 < n → g.get s n l = 0) :
    ∃ v w, rs2ccFast B f g (fastTable B t) = some v ∧ rs2cc B f g t = some w ∧ ∀ s a b c, v s a b c = w s a b c := by
  unfold rs2ccFast rs2cc
  have nb : ¬ bad f g := by unfold bad; tauto
  rw [if_neg nb, if_neg (by tauto)]
  refine ⟨_, _, rfl, rfl, fun s a b c => ?_⟩
  unfold invHalf
  apply sum_congr rfl
  intro i hi
  rw [mem_range] at hi
  have hB : 0 < B := by omega
  congr 2
  congr 1
  show invShift _ _ _ = invShift _ _ _
  rw [invShift_eq B hB, invShift_eq B hB]
  apply sum_congr rfl
  intro j hj
  rw [mem_range] at hj
  congr 1
  rw [invShift_eq B hB, sum_eq_single 0, sum_eq_single (B - 1)]
  · rw [if_pos hB, specF_eq t, Nat.zero_add]
    simp
  · intro q _ hq
    have : specR B t (f.get s) (g.get s) i j q = 0 := by
      unfold specR
      apply sum_eq_zero
      intro l _
      have : gAll B (g.get s) q l = 0 := by
        unfold gAll
        split_ifs with h
        · rw [hz s _ l (by omega), map_zero]
        · rw [hz s _ l (by omega), zero_mul]
      rw [this]; simp
    rw [this, zero_mul]
  · intro h; exact absurd (mem_range.2 (by omega)) h
  · intro r hr hr0
    rw [mem_range] at hr
    by_cases h : r < B
    · rw [if_pos h, specF_eq t]
      have : specR B t (f.get s) (g.get s) i j (r + (B - 1)) = 0 := by
        unfold specR
        apply sum_eq_zero
        intro l _
        have : gAll B (g.get s) (r + (B - 1)) l = 0 := by
          unfold gAll
          rw [if_pos (by omega), hz s _ l (by omega), map_zero]
        rw [this]; simp
      rw [this, zero_mul]
    · rw [if_neg h, zero_mul]
  · intro h; exact absurd (mem_range.2 (by omega)) h

/-! Non-vacuity: the table of every band limit is readable; a function symmetric about the z axis. -/
example : ∃ (t : Table ℝ) (g : Batch), readable t 4 ∧ (∀ s n l, 0 < n → g.get s n l = 0) ∧ g.get 0 0 2 = 1 := by
  obtain ⟨t, ht, -⟩ := C71_read_half_pi 3 0 0 0 (by omega) (by simp) (by simp)
  refine ⟨t, ⟨1, fun _ n _ => if n = 0 then 1 else 0⟩, readable_eq ht (by omega), fun s n l hn => ?_, by simp [Batch.get]⟩
  simp [Batch.get]; omega

/-- The real function whose only coefficient (of order at least zero) is `c_11 = 1`. -/
noncomputable def oneOne : Batch := ⟨1, fun _ n l => if n = 1 ∧ l = 1 then 1 else 0⟩

theorem oneOne_get (s n l : ℕ) : oneOne.get s n l = if n = 1 ∧ l = 1 then 1 else 0 := rfl

theorem d11_pi : wignerD 1 1 1 (-Real.pi) = 0 := by
  have h : Real.cos (-Real.pi / 2) = 0 := by rw [neg_div, Real.cos_neg, Real.cos_pi_div_two]
  unfold wignerD
  rw [show Icc (max 0 ((1 : ℤ) - 1)) (min (((1 : ℕ) : ℤ) + 1) (((1 : ℕ) : ℤ) - 1)) = {0} by decide, sum_singleton, h]
  norm_num

theorem d1m1_pi : wignerD 1 1 (-1) Real.pi = 1 := by
  unfold wignerD
  rw [show Icc (max 0 ((-1 : ℤ) - 1)) (min (((1 : ℕ) : ℤ) + -1) (((1 : ℕ) : ℤ) - 1)) = {0} by decide, sum_singleton]
  norm_num [zfact, Nat.factorial]
  rw [show Int.toNat 2 = 2 by rfl]
  norm_num

/-- **C105**, counterexample.  The fast version drops all negative orders of the second function: for the real function with
`c_11 = 1` (band limit 2) correlated with itself, `rs2cc_` returns `-2` at voxel `(0, 0, 0)` and `rs2cc_fast_` returns `0`. -/
theorem C105_fast_fails : ∃ (t : Table ℝ) (v w : ℕ → ℕ → ℕ → ℕ → ℝ), wignerEq 1 = some t ∧ rs2cc 2 oneOne oneOne t = some v ∧
    rs2ccFast 2 oneOne oneOne (fastTable 2 t) = some w ∧ v 0 0 0 0 = -2 ∧ w 0 0 0 0 = 0 := by
  obtain ⟨t, ht, -⟩ := C71_read_half_pi 1 0 0 0 (by omega) (by simp) (by simp)
  have hr : readable t 2 := readable_eq ht (by omega)
  have nb : ¬ bad oneOne oneOne := fun h => h.1 rfl
  unfold rs2ccFast rs2cc
  refine ⟨t, ?_⟩
  rw [if_neg nb, if_neg (by tauto)]
  have ha : angle 2 0 = 0 := by simp [angle]
  refine ⟨_, _, ht, rfl, rfl, ?_, ?_⟩
  · have h := rs2cc_value (B := 2) (by norm_num) ht (by omega) (oneOne.get 0) (oneOne.get 0) (fun l => by rw [oneOne_get]; simp) 0 0 0
    rw [inner_real] at h
    rw [Complex.ofReal_inj.1 h]
    have ht1 : turned 2 0 0 0 (realCoeffs fun l v => oneOne.get 0 v l) 1 1 = -1 := by
      unfold turned wignerRot
      rw [show Icc (-((1 : ℕ) : ℤ)) ((1 : ℕ) : ℤ) = {-1, 0, 1} by decide, sum_insert (by decide), sum_insert (by decide), sum_singleton]
      have h1 : realCoeffs (fun l v => oneOne.get 0 v l) 1 1 = 1 := by simp [realCoeffs, oneOne_get]
      have h0 : realCoeffs (fun l v => oneOne.get 0 v l) 1 0 = 0 := by simp [realCoeffs, oneOne_get]
      have hm : realCoeffs (fun l v => oneOne.get 0 v l) 1 (-1) = -1 := by simp [realCoeffs, oneOne_get]
      have hd : wignerD 1 1 1 Real.pi = 0 := by rw [← wignerD_neg_angle]; exact d11_pi
      have he : Complex.exp (-(((1 : ℤ) : ℂ) * ((0 - Real.pi / 2 : ℝ) : ℂ)) * Complex.I) * Complex.exp (-(((-1 : ℤ) : ℂ) * ((0 - Real.pi / 2 : ℝ) : ℂ)) * Complex.I) = 1 := by
        rw [← Complex.exp_add, ← Complex.exp_zero]; congr 1; push_cast; ring
      rw [h1, h0, hm, ha, sub_zero, hd, d1m1_pi]
      push_cast at he ⊢
      linear_combination (-1 : ℂ) * he
    generalize hT : turned 2 0 0 0 (realCoeffs fun l v => oneOne.get 0 v l) = T at ht1 ⊢
    simp only [sum_range_succ, sum_range_zero, oneOne_get]
    norm_num [twice, ht1]
  · have hs : ∀ j < 3, ∑ r ∈ range (2 * 2 - 1), (if r < 2 then specF 2 (fastTable 2 t) (oneOne.get 0) (oneOne.get 0) 1 j r else 0) * cis ((r : ℝ) * ((0 : ℕ) : ℝ) / ((2 * 2 - 1 : ℕ) : ℝ))
        = ((wignerD 1 ((j : ℤ) - 1) 1 (Real.pi / 2) * wignerD 1 1 ((j : ℤ) - 1) (Real.pi / 2) : ℝ) : ℂ) := by
      intro j hj
      have hj' : |(j : ℤ) - ((2 - 1 : ℕ) : ℤ)| ≤ ((1 : ℕ) : ℤ) := by rw [abs_le]; omega
      have hc : cis (((1 : ℕ) : ℝ) * ((0 : ℕ) : ℝ) / ((2 * 2 - 1 : ℕ) : ℝ)) = 1 := by simp [cis]
      rw [sum_eq_single 1, if_pos (by norm_num), hc, mul_one, specF_eq]
      · unfold specR
        rw [sum_eq_single 1, if_pos ⟨le_rfl, hj', by norm_num⟩, val, val, val_eq (B := 2) ht (by omega) (by norm_num) (by norm_num) hj',
          val_eq (B := 2) ht (by omega) (by norm_num) hj' (by norm_num)]
        · simp [oneOne_get, gAll]
        · intro l _ hl
          have : oneOne.get 0 1 l = 0 := by rw [oneOne_get, if_neg (fun h => hl h.2)]
          rw [this]; simp
        · intro h; exact absurd (by decide) h
      · intro r _ hr
        have : specF 2 (fastTable 2 t) (oneOne.get 0) (oneOne.get 0) 1 j r = 0 := by
          unfold specF
          apply sum_eq_zero
          intro l _
          rw [oneOne_get 0 r, if_neg (by omega)]; simp
        rw [this]; simp
      · intro h; exact absurd (by decide) h
    have h0 : ∀ j r, specF 2 (fastTable 2 t) (oneOne.get 0) (oneOne.get 0) 0 j r = 0 := by
      intro j r
      unfold specF
      apply sum_eq_zero
      intro l _
      rw [oneOne_get 0 0, if_neg (by omega)]; simp
    have hz : invShift (2 * 2 - 1) (fun j => ∑ r ∈ range (2 * 2 - 1), (if r < 2 then specF 2 (fastTable 2 t) (oneOne.get 0) (oneOne.get 0) 1 j r else 0) * cis ((r : ℝ) * ((0 : ℕ) : ℝ) / ((2 * 2 - 1 : ℕ) : ℝ))) 0 = 0 := by
      rw [invShift_eq 2 (by norm_num), sum_congr rfl fun j hj => by rw [hs j (mem_range.1 hj)]]
      have hm := middle 1 1 1 (by norm_num) (by norm_num) 0
      rw [zero_sub, d11_pi, show Icc (-((1 : ℕ) : ℤ)) ((1 : ℕ) : ℤ) = {-1, 0, 1} by decide, sum_insert (by decide), sum_insert (by decide), sum_singleton] at hm
      simp at hm
      simp [sum_range_succ, cis]
      linear_combination hm
    show invHalf 2 _ 0 = 0
    unfold invHalf
    rw [sum_range_succ, sum_range_succ, sum_range_zero]
    beta_reduce
    rw [hz]
    simp only [h0]
    simp [invShift]

end Verif.Sht.Cc
