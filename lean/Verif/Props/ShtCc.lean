import Verif.Model.ShtCc
import Verif.Props.ShtReal
import Verif.Lemmas.SphRotate
import Verif.Lemmas.SphParseval
/-!
C104-C105: spherical cross correlation.  The volumes hold the inner products of the first function with the second one turned
by the rotation that belongs to the voxel.
-/
namespace Verif.Sht.Cc
open Verif.Wigner Verif.Wigner.Rep Verif.Spec Verif.Fft Verif.Sht Verif.Sht.Rot Finset

/-! ### The transform -/

theorem invShift_eq (B : ℕ) (hB : 0 < B) (x : ℕ → ℂ) (a : ℕ) :
    invShift (2 * B - 1) x a = ∑ i ∈ range (2 * B - 1), x i * cis ((((i : ℤ) - ((B - 1 : ℕ) : ℤ) : ℤ) : ℝ) * a / (2 * B - 1 : ℕ)) := by
  unfold invShift
  set N := 2 * B - 1 with hN
  have hN0 : 0 < N := by omega
  rw [show N / 2 = B - 1 by omega]
  refine sum_bij' (fun r _ => (r + (B - 1)) % N) (fun i _ => (i + B) % N) ?_ ?_ ?_ ?_ ?_
  · intro r _; exact mem_range.2 (Nat.mod_lt _ hN0)
  · intro r _; exact mem_range.2 (Nat.mod_lt _ hN0)
  · intro r hr
    rw [mem_range] at hr
    rw [Nat.mod_add_mod, show r + (B - 1) + B = r + N by omega, Nat.add_mod_right, Nat.mod_eq_of_lt hr]
  · intro r hr
    rw [mem_range] at hr
    rw [Nat.mod_add_mod, show r + B + (B - 1) = r + N by omega, Nat.add_mod_right, Nat.mod_eq_of_lt hr]
  · intro r _
    congr 1
    have := cis_period N hN0 a (a := (r : ℤ)) (b := (((r + (B - 1)) % N : ℕ) : ℤ) - ((B - 1 : ℕ) : ℤ)) (by
      have : (((r + (B - 1)) % N : ℕ) : ℤ) = ((r + (B - 1) : ℕ) : ℤ) % (N : ℤ) := by push_cast; rfl
      rw [this, show (r : ℤ) - (((r + (B - 1) : ℕ) : ℤ) % (N : ℤ) - ((B - 1 : ℕ) : ℤ)) = ((r + (B - 1) : ℕ) : ℤ) - ((r + (B - 1) : ℕ) : ℤ) % (N : ℤ) by push_cast; ring]
      exact Int.dvd_self_sub_emod)
    rw [Int.cast_natCast] at this
    exact this

/-- Sum over the slice of degree `l`. -/
theorem slice_sum {M : Type*} [AddCommMonoid M] (B l : ℕ) (hl : l < B) (F : ℕ → M) :
    ∑ i ∈ range (2 * B - 1), (if |(i : ℤ) - ((B - 1 : ℕ) : ℤ)| ≤ l then F i else 0) =
      ∑ m ∈ Icc (-(l : ℤ)) l, F (m + ((B - 1 : ℕ) : ℤ)).toNat := by
  rw [← sum_filter]
  refine sum_bij (fun i _ => (i : ℤ) - ((B - 1 : ℕ) : ℤ)) ?_ ?_ ?_ ?_
  · intro i hi
    rw [mem_filter, mem_range, abs_le] at hi
    rw [mem_Icc]; exact hi.2
  · intro a _ b _ h
    simpa using h
  · intro m hm
    rw [mem_Icc] at hm
    refine ⟨(m + ((B - 1 : ℕ) : ℤ)).toNat, ?_, by omega⟩
    rw [mem_filter, mem_range, abs_le]; omega
  · intro i hi
    congr 1
    omega

/-- The angle that belongs to index `a` along a dimension of the volume. -/
noncomputable def angle (B a : ℕ) : ℝ := 2 * Real.pi * a / (2 * B - 1 : ℕ)

theorem cis_angle (B a : ℕ) (m : ℤ) : cis ((m : ℝ) * a / (2 * B - 1 : ℕ)) = Complex.exp (m * angle B a * Complex.I) := by
  unfold cis angle
  congr 1
  push_cast
  ring

theorem val_eq {L B : ℕ} {t : Table ℝ} (ht : wignerEq L = some t) (hL : B ≤ L + 1) {l : ℕ} {m n : ℤ} (hl : l < B) (hm : |m| ≤ l) (hn : |n| ≤ l) :
    rd t l m n = some (wignerD l n m (Real.pi / 2)) := by
  obtain ⟨t', h1, h2, _⟩ := C71_read_half_pi L l m n (by omega) hm hn
  rw [ht] at h1
  cases h1
  exact h2

theorem readable_eq {L B : ℕ} {t : Table ℝ} (ht : wignerEq L = some t) (hL : B ≤ L + 1) : readable t B := by
  intro l hl m n hm hn
  rw [val_eq ht hL hl hm hn]; rfl

/-- The middle sum: products of two half-pi tables are Wigner's matrices at the shifted angle. -/
theorem middle (l : ℕ) (m n : ℤ) (hm : |m| ≤ l) (hn : |n| ≤ l) (β : ℝ) :
    ∑ k ∈ Icc (-(l : ℤ)) l, ((wignerD l k m (Real.pi / 2) * wignerD l n k (Real.pi / 2) : ℝ) : ℂ) * Complex.exp (k * β * Complex.I) =
      Complex.exp (-(m * (Real.pi / 2)) * Complex.I) * (wignerD l n m (β - Real.pi) : ℂ) * Complex.exp (-(n * (Real.pi / 2)) * Complex.I) := by
  rw [abs_le] at hm hn
  obtain ⟨p, hp, rfl⟩ : ∃ p : ℕ, p ≤ 2 * l ∧ m = (p : ℤ) - l := ⟨(m + l).toNat, by omega, by omega⟩
  obtain ⟨s, hs, rfl⟩ : ∃ s : ℕ, s ≤ 2 * l ∧ n = (s : ℤ) - l := ⟨(n + l).toNat, by omega, by omega⟩
  have h := edmonds l s p hs hp (β - Real.pi)
  rw [sum_Icc_range]
  have hI : ∀ k : ℕ, Complex.I ^ k = Complex.exp (k * (Real.pi / 2) * Complex.I) := by
    intro k
    rw [mul_assoc, Complex.exp_nat_mul, Complex.exp_pi_div_two_mul_I]
  have e : ∀ r ∈ range (2 * l + 1), ((wignerD l ((r : ℤ) - l) ((p : ℤ) - l) (Real.pi / 2) : ℝ) : ℂ) *
      ((wignerD l ((r : ℤ) - l) ((s : ℤ) - l) (Real.pi / 2) : ℝ) : ℂ) * Complex.exp (((r : ℝ) - l) * ((β - Real.pi : ℝ) : ℂ) * Complex.I)
      = ((sgnPow ((s : ℤ) - l) : ℝ) : ℂ) * (((wignerD l ((r : ℤ) - l) ((p : ℤ) - l) (Real.pi / 2) * wignerD l ((s : ℤ) - l) ((r : ℤ) - l) (Real.pi / 2) : ℝ) : ℂ) *
        Complex.exp ((((r : ℤ) - l : ℤ) : ℂ) * β * Complex.I)) := by
    intro r _
    have e1 : Complex.exp (((r : ℝ) - l) * ((β - Real.pi : ℝ) : ℂ) * Complex.I) = ((sgnPow ((r : ℤ) - l) : ℝ) : ℂ) * Complex.exp ((((r : ℤ) - l : ℤ) : ℂ) * β * Complex.I) := by
      have : Complex.exp (-((((r : ℤ) - l : ℤ) : ℂ) * (Real.pi * Complex.I))) = ((sgnPow ((r : ℤ) - l) : ℝ) : ℂ) := by
        rw [Complex.exp_neg, Complex.exp_int_mul, Complex.exp_pi_mul_I, ← zpow_sgn]
        push_cast
        rw [← inv_zpow]; norm_num
      rw [← this, ← Complex.exp_add]
      congr 1
      push_cast
      ring
    rw [e1, wignerD_swap l ((s : ℤ) - l) ((r : ℤ) - l)]
    have hq : sgnPow ((s : ℤ) - l - ((r : ℤ) - l)) * sgnPow ((r : ℤ) - l) = sgnPow ((s : ℤ) - l) := by
      rw [sgnPow_add]; congr 1; ring
    rw [← hq]
    push_cast
    ring
  rw [sum_congr rfl e, ← mul_sum] at h
  have hsg : ((sgnPow ((s : ℤ) - l) : ℝ) : ℂ) = Complex.exp (-((((s : ℤ) - l : ℤ) : ℂ) * (Real.pi * Complex.I))) := by
    rw [Complex.exp_neg, Complex.exp_int_mul, Complex.exp_pi_mul_I, ← zpow_sgn]
    push_cast
    rw [← inv_zpow]; norm_num
  rw [hI, hI, hsg, ← mul_assoc, ← Complex.exp_add] at h
  set S := ∑ i ∈ range (2 * l + 1), ((wignerD l ((i : ℤ) - l) ((p : ℤ) - l) (Real.pi / 2) * wignerD l ((s : ℤ) - l) ((i : ℤ) - l) (Real.pi / 2) : ℝ) : ℂ) *
        Complex.exp ((((i : ℤ) - l : ℤ) : ℂ) * β * Complex.I) with hS
  have hz := Complex.exp_ne_zero (↑p * (↑Real.pi / 2) * Complex.I + -((((s : ℤ) - l : ℤ) : ℂ) * (Real.pi * Complex.I)))
  have h2 : S = Complex.exp (-(↑p * (↑Real.pi / 2) * Complex.I + -((((s : ℤ) - l : ℤ) : ℂ) * (Real.pi * Complex.I)))) *
      (↑(wignerD l ((s : ℤ) - l) ((p : ℤ) - l) (β - Real.pi)) * Complex.exp (↑s * (↑Real.pi / 2) * Complex.I)) := by
    rw [h, Complex.exp_neg, inv_mul_cancel_left₀ hz]
  have key : Complex.exp (-(↑p * (↑Real.pi / 2) * Complex.I + -((((s : ℤ) - l : ℤ) : ℂ) * (Real.pi * Complex.I)))) * Complex.exp (↑s * (↑Real.pi / 2) * Complex.I)
      = Complex.exp (-((((p : ℤ) - l : ℤ) : ℂ) * (Real.pi / 2)) * Complex.I) * Complex.exp (-((((s : ℤ) - l : ℤ) : ℂ) * (Real.pi / 2)) * Complex.I) := by
    rw [← Complex.exp_add, ← Complex.exp_add, Complex.exp_eq_exp_iff_exists_int]
    refine ⟨(s : ℤ) - l, ?_⟩
    push_cast
    ring
  rw [h2]
  linear_combination (↑(wignerD l ((s : ℤ) - l) ((p : ℤ) - l) (β - Real.pi)) : ℂ) * key

/-- The rotation that belongs to voxel `(a, b, c)`. -/
noncomputable def voxelRotation (B a b c : ℕ) : Matrix (Fin 3) (Fin 3) ℝ :=
  rotZ (angle B a - Real.pi / 2) * rotY (Real.pi - angle B b) * rotZ (angle B c - Real.pi / 2)

/-- The coefficients of `g` turned to the voxel's orientation. -/
noncomputable def turned (B a b c : ℕ) (g : ℕ → ℤ → ℂ) (l : ℕ) (m : ℤ) : ℂ :=
  ∑ n ∈ Icc (-(l : ℤ)) l, wignerRot l m n (angle B a - Real.pi / 2) (Real.pi - angle B b) (angle B c - Real.pi / 2) * g l n

theorem isTurned (B a b c : ℕ) (g : ℕ → ℤ → ℂ) : IsTurned B (voxelRotation B a b c) g (turned B a b c g) := by
  intro θ φ θ' φ' h
  exact field_rotate B g _ _ _ θ φ θ' φ' h

/-- One term of the correlation. -/
noncomputable def term (B a b c : ℕ) (x y : ℤ → ℂ) (l : ℕ) (m : ℤ) : ℂ :=
  x m * Complex.exp (m * angle B a * Complex.I) * ∑ n ∈ Icc (-(l : ℤ)) l, y n * (∑ k ∈ Icc (-(l : ℤ)) l,
    ((wignerD l k m (Real.pi / 2) * wignerD l n k (Real.pi / 2) : ℝ) : ℂ) * Complex.exp (k * angle B b * Complex.I)) * Complex.exp (n * angle B c * Complex.I)

theorem term_eq (B a b c : ℕ) (f g : ℕ → ℤ → ℂ) (l : ℕ) (m : ℤ) (hm : |m| ≤ l) :
    term B a b c (f l) (fun n => (starRingEnd ℂ) (g l n)) l m = f l m * (starRingEnd ℂ) (turned B a b c g l m) := by
  unfold term turned
  rw [map_sum, mul_sum, mul_sum]
  apply sum_congr rfl
  intro n hn
  rw [mem_Icc] at hn
  rw [middle l m n hm (by rw [abs_le]; omega)]
  unfold wignerRot
  simp only [map_mul, Complex.conj_ofReal, ← Complex.exp_conj, map_neg, Complex.conj_I, map_intCast]
  rw [show wignerD l m n (Real.pi - angle B b) = wignerD l n m (angle B b - Real.pi) by
    rw [← wignerD_neg_angle]; congr 1; ring]
  have e1 : Complex.exp (m * angle B a * Complex.I) * Complex.exp (-(m * (Real.pi / 2)) * Complex.I) =
      Complex.exp (-(m * ((angle B a - Real.pi / 2 : ℝ) : ℂ)) * -Complex.I) := by
    rw [← Complex.exp_add]; congr 1; push_cast; ring
  have e2 : Complex.exp (-(n * (Real.pi / 2)) * Complex.I) * Complex.exp (n * angle B c * Complex.I) =
      Complex.exp (-(n * ((angle B c - Real.pi / 2 : ℝ) : ℂ)) * -Complex.I) := by
    rw [← Complex.exp_add]; congr 1; push_cast; ring
  rw [← e1, ← e2]
  ring

theorem specC_inv {L B : ℕ} {t : Table ℝ} (hB : 0 < B) (ht : wignerEq L = some t) (hL : B ≤ L + 1) (f g : ℕ → ℕ → ℂ) (a b c : ℕ) :
    invShift (2 * B - 1) (fun i => invShift (2 * B - 1) (fun j => invShift (2 * B - 1) (fun q => specC B t f g i j q) c) b) a =
      sphInner B (fun l m => f (m + ((B - 1 : ℕ) : ℤ)).toNat l) (turned B a b c fun l m => g (m + ((B - 1 : ℕ) : ℤ)).toNat l) := by
  simp only [invShift_eq B hB]
  unfold specC sphInner
  simp only [sum_mul]
  -- bring the sum over degrees outside
  have c1 : ∀ i ∈ range (2 * B - 1), ∀ j ∈ range (2 * B - 1), ∑ q ∈ range (2 * B - 1), ∑ l ∈ range B,
      (if |(i : ℤ) - ((B - 1 : ℕ) : ℤ)| ≤ l ∧ |(j : ℤ) - ((B - 1 : ℕ) : ℤ)| ≤ l ∧ |(q : ℤ) - ((B - 1 : ℕ) : ℤ)| ≤ l then
        f i l * (starRingEnd ℂ) (g q l) * ((val t l ((i : ℤ) - ((B - 1 : ℕ) : ℤ)) ((j : ℤ) - ((B - 1 : ℕ) : ℤ))
        * val t l ((j : ℤ) - ((B - 1 : ℕ) : ℤ)) ((q : ℤ) - ((B - 1 : ℕ) : ℤ)) : ℝ) : ℂ) else 0) * cis ((((q : ℤ) - ((B - 1 : ℕ) : ℤ) : ℤ) : ℝ) * c / (2 * B - 1 : ℕ)) *
        cis ((((j : ℤ) - ((B - 1 : ℕ) : ℤ) : ℤ) : ℝ) * b / (2 * B - 1 : ℕ)) * cis ((((i : ℤ) - ((B - 1 : ℕ) : ℤ) : ℤ) : ℝ) * a / (2 * B - 1 : ℕ)) =
      ∑ l ∈ range B, if |(i : ℤ) - ((B - 1 : ℕ) : ℤ)| ≤ l then (if |(j : ℤ) - ((B - 1 : ℕ) : ℤ)| ≤ l then
        ∑ n ∈ Icc (-(l : ℤ)) l, f i l * (starRingEnd ℂ) (g (n + ((B - 1 : ℕ) : ℤ)).toNat l) *
          ((wignerD l ((j : ℤ) - ((B - 1 : ℕ) : ℤ)) ((i : ℤ) - ((B - 1 : ℕ) : ℤ)) (Real.pi / 2) * wignerD l n ((j : ℤ) - ((B - 1 : ℕ) : ℤ)) (Real.pi / 2) : ℝ) : ℂ) *
          Complex.exp (n * angle B c * Complex.I) * Complex.exp ((((j : ℤ) - ((B - 1 : ℕ) : ℤ) : ℤ) : ℂ) * angle B b * Complex.I) *
          Complex.exp ((((i : ℤ) - ((B - 1 : ℕ) : ℤ) : ℤ) : ℂ) * angle B a * Complex.I) else 0) else 0 := by
    intro i _ j _
    rw [sum_comm]
    apply sum_congr rfl
    intro l hl
    rw [mem_range] at hl
    by_cases hi : |(i : ℤ) - ((B - 1 : ℕ) : ℤ)| ≤ l
    · by_cases hj : |(j : ℤ) - ((B - 1 : ℕ) : ℤ)| ≤ l
      · rw [if_pos hi, if_pos hj]
        rw [← slice_sum B l hl (fun q => f i l * (starRingEnd ℂ) (g q l) *
          ((wignerD l ((j : ℤ) - ((B - 1 : ℕ) : ℤ)) ((i : ℤ) - ((B - 1 : ℕ) : ℤ)) (Real.pi / 2) * wignerD l ((q : ℤ) - ((B - 1 : ℕ) : ℤ)) ((j : ℤ) - ((B - 1 : ℕ) : ℤ)) (Real.pi / 2) : ℝ) : ℂ) *
          Complex.exp ((((q : ℤ) - ((B - 1 : ℕ) : ℤ) : ℤ) : ℂ) * angle B c * Complex.I) * Complex.exp ((((j : ℤ) - ((B - 1 : ℕ) : ℤ) : ℤ) : ℂ) * angle B b * Complex.I) *
          Complex.exp ((((i : ℤ) - ((B - 1 : ℕ) : ℤ) : ℤ) : ℂ) * angle B a * Complex.I)) |>.trans (sum_congr rfl fun n hn => by
            rw [mem_Icc] at hn
            rw [show (((n + ((B - 1 : ℕ) : ℤ)).toNat : ℤ) - ((B - 1 : ℕ) : ℤ)) = n by omega])]
        apply sum_congr rfl
        intro q _
        by_cases hq : |(q : ℤ) - ((B - 1 : ℕ) : ℤ)| ≤ l
        · rw [if_pos ⟨hi, hj, hq⟩, if_pos hq, val, val, val_eq ht hL hl hi hj, val_eq ht hL hl hj hq, Option.getD_some, Option.getD_some,
            cis_angle, cis_angle, cis_angle]
        · rw [if_neg (by tauto), if_neg hq]; ring
      · rw [if_pos hi, if_neg hj]
        apply sum_eq_zero; intro q _; rw [if_neg (by tauto)]; ring
    · rw [if_neg hi]
      apply sum_eq_zero; intro q _; rw [if_neg (by tauto)]; ring
  rw [sum_congr rfl fun i hi => sum_congr rfl fun j hj => c1 i hi j hj]
  rw [sum_congr rfl fun i _ => sum_comm, sum_comm]
  apply sum_congr rfl
  intro l hl
  rw [mem_range] at hl
  have c2 : ∀ i ∈ range (2 * B - 1), ∑ j ∈ range (2 * B - 1), (if |(i : ℤ) - ((B - 1 : ℕ) : ℤ)| ≤ l then (if |(j : ℤ) - ((B - 1 : ℕ) : ℤ)| ≤ l then
        ∑ n ∈ Icc (-(l : ℤ)) l, f i l * (starRingEnd ℂ) (g (n + ((B - 1 : ℕ) : ℤ)).toNat l) *
          ((wignerD l ((j : ℤ) - ((B - 1 : ℕ) : ℤ)) ((i : ℤ) - ((B - 1 : ℕ) : ℤ)) (Real.pi / 2) * wignerD l n ((j : ℤ) - ((B - 1 : ℕ) : ℤ)) (Real.pi / 2) : ℝ) : ℂ) *
          Complex.exp (n * angle B c * Complex.I) * Complex.exp ((((j : ℤ) - ((B - 1 : ℕ) : ℤ) : ℤ) : ℂ) * angle B b * Complex.I) *
          Complex.exp ((((i : ℤ) - ((B - 1 : ℕ) : ℤ) : ℤ) : ℂ) * angle B a * Complex.I) else 0) else 0) =
      if |(i : ℤ) - ((B - 1 : ℕ) : ℤ)| ≤ l then term B a b c (fun _ => f i l) (fun n => (starRingEnd ℂ) (g (n + ((B - 1 : ℕ) : ℤ)).toNat l)) l ((i : ℤ) - ((B - 1 : ℕ) : ℤ)) else 0 := by
    intro i _
    by_cases hi : |(i : ℤ) - ((B - 1 : ℕ) : ℤ)| ≤ l
    · simp only [if_pos hi]
      rw [slice_sum B l hl (fun j => ∑ n ∈ Icc (-(l : ℤ)) l, f i l * (starRingEnd ℂ) (g (n + ((B - 1 : ℕ) : ℤ)).toNat l) *
          ((wignerD l ((j : ℤ) - ((B - 1 : ℕ) : ℤ)) ((i : ℤ) - ((B - 1 : ℕ) : ℤ)) (Real.pi / 2) * wignerD l n ((j : ℤ) - ((B - 1 : ℕ) : ℤ)) (Real.pi / 2) : ℝ) : ℂ) *
          Complex.exp (n * angle B c * Complex.I) * Complex.exp ((((j : ℤ) - ((B - 1 : ℕ) : ℤ) : ℤ) : ℂ) * angle B b * Complex.I) *
          Complex.exp ((((i : ℤ) - ((B - 1 : ℕ) : ℤ) : ℤ) : ℂ) * angle B a * Complex.I)), sum_comm, term, mul_sum]
      apply sum_congr rfl
      intro n _
      simp only [mul_sum, sum_mul]
      apply sum_congr rfl
      intro k hk
      rw [mem_Icc] at hk
      rw [show (((k + ((B - 1 : ℕ) : ℤ)).toNat : ℤ) - ((B - 1 : ℕ) : ℤ)) = k by omega]
      ring
    · simp only [if_neg hi, sum_const_zero]
  rw [sum_congr rfl c2, slice_sum B l hl (fun i => term B a b c (fun _ => f i l) (fun n => (starRingEnd ℂ) (g (n + ((B - 1 : ℕ) : ℤ)).toNat l)) l ((i : ℤ) - ((B - 1 : ℕ) : ℤ)))]
  apply sum_congr rfl
  intro m hm
  rw [mem_Icc] at hm
  rw [show (((m + ((B - 1 : ℕ) : ℤ)).toNat : ℤ) - ((B - 1 : ℕ) : ℤ)) = m by omega]
  exact term_eq B a b c (fun l m => f (m + ((B - 1 : ℕ) : ℤ)).toNat l) (fun l m => g (m + ((B - 1 : ℕ) : ℤ)).toNat l) l m (by rw [abs_le]; omega)

/-- **C104** (complex).  With a table that covers the band limit, `cs2cc_` returns for every pair of batch elements and every
voxel the magnitude of the inner product (the integral over the sphere) of the first function with the second one turned by the rotation of the voxel. -/
theorem C104_complex_correlation (L B : ℕ) (hB : 0 < B) (hL : B ≤ L + 1) : ∃ t, wignerEq L = some t ∧ ∀ f g : Batch,
    (f.b = g.b ∨ f.b = 1 ∨ g.b = 1) → ∃ vol, cs2cc B f g t = some vol ∧ ∀ s a b c : ℕ,
      ∃ h, IsTurned B (voxelRotation B a b c) (fun l m => g.at_ (if g.b = 1 then 0 else s) (m + ((B - 1 : ℕ) : ℤ)).toNat l) h ∧
        vol s a b c = ‖sphIntegral (sphField B fun l m => f.at_ (if f.b = 1 then 0 else s) (m + ((B - 1 : ℕ) : ℤ)).toNat l) (sphField B h)‖ := by
  obtain ⟨t, ht, -⟩ := C71_read_half_pi L 0 0 0 (by omega) (by simp) (by simp)
  refine ⟨t, ht, fun f g hb => ?_⟩
  unfold cs2cc
  rw [if_neg (by
    rintro (h | h)
    · unfold bad at h; tauto
    · exact h (readable_eq ht hL))]
  refine ⟨_, rfl, fun s a b c => ⟨turned B a b c _, isTurned B a b c _, ?_⟩⟩
  rw [specC_inv hB ht hL, sphIntegral_eq]
  rfl

end Verif.Sht.Cc
