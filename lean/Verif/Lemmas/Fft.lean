import Verif.Model.Fft
import Mathlib.RingTheory.RootsOfUnity.Complex
import Mathlib.Algebra.Field.GeomSum
import Mathlib.Tactic
/-! Orthogonality of the discrete exponentials and the correlation theorem for `xcorr`. -/
namespace Verif.Fft
open Verif.Blur Finset

theorem cis_add (s t : ℝ) : cis (s + t) = cis s * cis t := by
  unfold cis; rw [← Complex.exp_add]; push_cast; ring_nf

theorem cis_conj (t : ℝ) : (starRingEnd ℂ) (cis t) = cis (-t) := by
  unfold cis; rw [← Complex.exp_conj]; congr 1
  have : (starRingEnd ℂ) (2 : ℂ) = 2 := Complex.conj_ofNat 2
  simp [this]

theorem cis_nat_mul (n : ℕ) (t : ℝ) : cis (n * t) = cis t ^ n := by
  unfold cis; rw [← Complex.exp_nat_mul]; push_cast; ring_nf

theorem cis_eq_one {t : ℝ} : cis t = 1 ↔ ∃ k : ℤ, t = k := by
  unfold cis
  rw [Complex.exp_eq_one_iff]
  have hp : (2 * (Real.pi : ℂ) * Complex.I) ≠ 0 := by
    simp [Real.pi_ne_zero]
  constructor
  · rintro ⟨k, hk⟩
    refine ⟨k, ?_⟩
    have : (2 * (Real.pi : ℂ) * Complex.I) * ((t : ℂ) - k) = 0 := by linear_combination hk
    rcases mul_eq_zero.mp this with h | h
    · exact absurd h hp
    · have h2 : (t : ℂ) = ((k : ℝ) : ℂ) := by push_cast; linear_combination h
      exact_mod_cast h2
  · rintro ⟨k, rfl⟩
    exact ⟨k, by push_cast; ring⟩

/-- Orthogonality. -/
theorem sum_cis (n : ℕ) (hn : 0 < n) (p : ℤ) :
    ∑ u ∈ range n, cis ((u : ℝ) * p / n) = if (n : ℤ) ∣ p then (n : ℂ) else 0 := by
  have h0 : (n : ℝ) ≠ 0 := by positivity
  have e : ∀ u : ℕ, cis ((u : ℝ) * p / n) = cis ((p : ℝ) / n) ^ u := fun u => by
    rw [← cis_nat_mul]; congr 1; ring
  simp_rw [e]
  split_ifs with h
  · obtain ⟨k, rfl⟩ := h
    have : cis (((n * k : ℤ) : ℝ) / n) = 1 := cis_eq_one.mpr ⟨k, by push_cast; field_simp⟩
    rw [this]; simp
  · have hz : cis ((p : ℝ) / n) ≠ 1 := by
      intro hc
      obtain ⟨k, hk⟩ := cis_eq_one.mp hc
      apply h
      refine ⟨k, ?_⟩
      have : (p : ℝ) = n * k := by rw [div_eq_iff h0] at hk; linarith
      exact_mod_cast this
    rw [geom_sum_eq hz]
    have : cis ((p : ℝ) / n) ^ n = 1 := by
      rw [← cis_nat_mul]; exact cis_eq_one.mpr ⟨p, by field_simp⟩
    rw [this]; simp

theorem cis_re (t : ℝ) : (cis t).re = Real.cos (2 * Real.pi * t) := by
  unfold cis
  have : (2 * (Real.pi : ℂ) * t * Complex.I) = ((2 * Real.pi * t : ℝ) : ℂ) * Complex.I := by push_cast; ring
  rw [this, Complex.exp_ofReal_mul_I_re]

/-- A symmetric sum over one period, folded. -/
theorem sum_fold (m : ℕ) (hm : 0 < m) (f : ℕ → ℝ) (hf : ∀ v ≤ 2 * m, f (2 * m - v) = f v) :
    ∑ v ∈ range (m + 1), colWeight (m + 1) v * f v = ∑ v ∈ range (2 * m), f v := by
  have h1 : ∑ v ∈ range (2 * m), f v = ∑ v ∈ range m, f v + ∑ v ∈ range m, f (v + 1) := by
    rw [two_mul, sum_range_add, ← sum_range_reflect (fun v => f (m + v))]
    congr 1
    apply sum_congr rfl
    intro v hv
    have hv' := mem_range.mp hv
    have := hf (v + 1) (by omega)
    rw [← this]; congr 1; omega
  obtain ⟨k, rfl⟩ : ∃ k, m = k + 1 := ⟨m - 1, by omega⟩
  rw [h1, sum_range_succ, sum_range_succ', sum_range_succ' f, sum_range_succ (fun v => f (v + 1))]
  have e : ∀ v ∈ range k, colWeight (k + 1 + 1) (v + 1) * f (v + 1) = 2 * f (v + 1) := by
    intro v hv
    have hv' := mem_range.mp hv
    unfold colWeight
    rw [if_neg (by omega)]
  rw [sum_congr rfl e, ← mul_sum]
  simp only [colWeight]
  norm_num
  ring


/-- The same for the weighted half sum of cosines. -/
theorem sum_half (m : ℕ) (hm : 0 < m) (q : ℤ) :
    ∑ v ∈ range (m + 1), colWeight (m + 1) v * (cis ((v : ℝ) * q / (2 * m : ℕ))).re
      = if ((2 * m : ℕ) : ℤ) ∣ q then ((2 * m : ℕ) : ℝ) else 0 := by
  have hw : ((2 * m : ℕ) : ℝ) ≠ 0 := by positivity
  rw [sum_fold m hm (fun v => (cis ((v : ℝ) * q / (2 * m : ℕ))).re)]
  · rw [← Complex.re_sum, sum_cis (2 * m) (by omega) q]
    split_ifs <;> simp
  · intro v hv
    simp only [cis_re]
    rw [Nat.cast_sub hv]
    have : 2 * Real.pi * ((((2 * m : ℕ) : ℝ) - v) * q / (2 * m : ℕ))
        = (q : ℝ) * (2 * Real.pi) - 2 * Real.pi * ((v : ℝ) * q / (2 * m : ℕ)) := by
      field_simp
    rw [this, Real.cos_int_mul_two_pi_sub]

/-- Selecting the one index with a given residue. -/
theorem sum_residue (n : ℕ) (hn : 0 < n) (s : ℕ) (f : ℕ → ℝ) :
    ∑ i ∈ range n, (if (n : ℤ) ∣ ((s : ℤ) - i) then f i else 0) = f (s % n) := by
  rw [sum_eq_single (s % n)]
  · rw [if_pos]
    have : ((s % n : ℕ) : ℤ) = (s : ℤ) % n := by push_cast; rfl
    rw [this]; exact Int.dvd_self_sub_emod
  · intro i hi hne
    rw [if_neg]
    intro hd
    apply hne
    have hi' := mem_range.mp hi
    have h1 : (s : ℤ) % n = (i : ℤ) % n := (Int.ModEq.symm (Int.modEq_iff_dvd.mpr hd))
    have h2 : (s % n : ℕ) = i % n := by exact_mod_cast h1
    rw [h2, Nat.mod_eq_of_lt hi']
  · intro h; exact absurd (mem_range.mpr (Nat.mod_lt _ hn)) h

/-- The kernel of the product of two transforms. -/
theorem spectrum_product (a b : Img) (h1 : b.h = a.h) (h2 : b.w = a.w) (u v : ℕ) :
    (rfft2 a).at_ u v * (starRingEnd ℂ) ((rfft2 b).at_ u v) =
      ∑ k ∈ range a.h, ∑ l ∈ range a.w, ∑ i ∈ range a.h, ∑ j ∈ range a.w,
        ((b.px k l * a.px i j : ℝ) : ℂ) *
          (cis ((u : ℝ) * ((k : ℝ) - i) / a.h) * cis ((v : ℝ) * ((l : ℝ) - j) / a.w)) := by
  unfold rfft2
  simp only [h1, h2, map_sum, map_mul, Complex.conj_ofReal, cis_conj]
  rw [mul_comm, sum_mul]
  apply sum_congr rfl; intro k _
  rw [sum_mul]
  apply sum_congr rfl; intro l _
  rw [mul_sum]
  apply sum_congr rfl; intro i _
  rw [mul_sum]
  apply sum_congr rfl; intro j _
  have e1 : (u : ℝ) * ((k : ℝ) - i) / a.h = -(-((u : ℝ) * k / a.h)) + -((u : ℝ) * i / a.h) := by ring
  have e2 : (v : ℝ) * ((l : ℝ) - j) / a.w = -(-((v : ℝ) * l / a.w)) + -((v : ℝ) * j / a.w) := by ring
  rw [e1, e2, cis_add, cis_add]
  push_cast
  ring

/-- Sum over the rows of the spectrum: the row shift is selected. -/
theorem rows_sum (a b : Img) (h1 : b.h = a.h) (h2 : b.w = a.w) (hh : 0 < a.h) (v y : ℕ) :
    (∑ u ∈ range a.h, (rfft2 a).at_ u v * (starRingEnd ℂ) ((rfft2 b).at_ u v) * cis ((u : ℝ) * y / a.h)) =
      (a.h : ℂ) * ∑ k ∈ range a.h, ∑ l ∈ range a.w, ∑ j ∈ range a.w,
        ((b.px k l * a.px ((k + y) % a.h) j : ℝ) : ℂ) * cis ((v : ℝ) * ((l : ℝ) - j) / a.w) := by
  have e : ∀ u : ℕ, (rfft2 a).at_ u v * (starRingEnd ℂ) ((rfft2 b).at_ u v) * cis ((u : ℝ) * y / a.h) =
      ∑ k ∈ range a.h, ∑ l ∈ range a.w, ∑ i ∈ range a.h, ∑ j ∈ range a.w,
        ((b.px k l * a.px i j : ℝ) : ℂ) * cis ((v : ℝ) * ((l : ℝ) - j) / a.w) *
          cis ((u : ℝ) * (((k + y : ℕ) : ℤ) - (i : ℤ) : ℤ) / a.h) := by
    intro u
    rw [spectrum_product a b h1 h2, sum_mul]
    apply sum_congr rfl; intro k _
    rw [sum_mul]; apply sum_congr rfl; intro l _
    rw [sum_mul]; apply sum_congr rfl; intro i _
    rw [sum_mul]; apply sum_congr rfl; intro j _
    have e1 : (u : ℝ) * ((((k + y : ℕ) : ℤ) - (i : ℤ) : ℤ) : ℝ) / a.h
        = (u : ℝ) * ((k : ℝ) - i) / a.h + (u : ℝ) * y / a.h := by push_cast; ring
    rw [e1, cis_add]; ring
  simp_rw [e]
  rw [sum_comm, mul_sum]
  apply sum_congr rfl; intro k _
  rw [sum_comm, mul_sum]
  apply sum_congr rfl; intro l _
  rw [sum_comm]
  have e3 : ∀ i ∈ range a.h, (∑ u ∈ range a.h, ∑ j ∈ range a.w,
        ((b.px k l * a.px i j : ℝ) : ℂ) * cis ((v : ℝ) * ((l : ℝ) - j) / a.w) *
          cis ((u : ℝ) * (((k + y : ℕ) : ℤ) - (i : ℤ) : ℤ) / a.h)) =
      (∑ j ∈ range a.w, ((b.px k l * a.px i j : ℝ) : ℂ) * cis ((v : ℝ) * ((l : ℝ) - j) / a.w)) *
        (if (a.h : ℤ) ∣ (((k + y : ℕ) : ℤ) - i) then (a.h : ℂ) else 0) := by
    intro i _
    rw [← sum_cis a.h hh, sum_comm, sum_mul]
    apply sum_congr rfl; intro j _
    rw [mul_sum]
  rw [sum_congr rfl e3, sum_eq_single ((k + y) % a.h)]
  · rw [if_pos]
    · rw [mul_comm]
    · have : (((k + y) % a.h : ℕ) : ℤ) = ((k + y : ℕ) : ℤ) % a.h := by push_cast; rfl
      rw [this]; exact Int.dvd_self_sub_emod
  · intro i hi hne
    rw [if_neg, mul_zero]
    intro hd
    apply hne
    have hi' := mem_range.mp hi
    have h1 : ((k + y : ℕ) : ℤ) % a.h = (i : ℤ) % a.h := (Int.ModEq.symm (Int.modEq_iff_dvd.mpr hd))
    have h2 : ((k + y) % a.h : ℕ) = i % a.h := by exact_mod_cast h1
    rw [h2, Nat.mod_eq_of_lt hi']
  · intro h; exact absurd (mem_range.mpr (Nat.mod_lt _ hh)) h

/-- **Correlation theorem** for images of even width. -/
theorem xcorr_eq (a b : Img) (h1 : b.h = a.h) (h2 : b.w = a.w) (hh : 0 < a.h) (hw : 0 < a.w) (he : a.w % 2 = 0) :
    ∃ c, xcorr a b = some c ∧ c.h = a.h ∧ c.w = a.w ∧ ∀ y x : ℕ,
      c.px y x = ∑ k ∈ range a.h, ∑ l ∈ range a.w,
        b.px k l * a.px ((k + (y + (a.h - a.h / 2)) % a.h) % a.h) ((l + (x + (a.w - a.w / 2)) % a.w) % a.w) := by
  obtain ⟨m, hm⟩ : ∃ m, a.w = 2 * m := ⟨a.w / 2, by omega⟩
  have hm0 : 0 < m := by omega
  have hdiv : a.w / 2 = m := by omega
  unfold xcorr
  have hsome : (rfft2 a).mulConj (rfft2 b) = some ⟨a.h, a.w / 2 + 1,
      fun u v => (rfft2 a).at_ u v * (starRingEnd ℂ) ((rfft2 b).at_ u v)⟩ := by
    unfold Half.mulConj
    rw [if_pos ⟨by simp [rfft2, h1], by simp [rfft2, h2]⟩]
    rfl
  rw [hsome]
  unfold irfft2
  simp only [Option.bind_some]
  rw [if_neg (by omega)]
  refine ⟨_, rfl, rfl, by simp [fftshift2]; omega, ?_⟩
  intro y x
  simp only [fftshift2]
  have hw2 : 2 * (a.w / 2 + 1 - 1) = a.w := by omega
  rw [hw2]
  generalize (y + (a.h - a.h / 2)) % a.h = Y
  generalize (x + (a.w - a.w / 2)) % a.w = X
  have hr : ∀ v : ℕ, ((∑ u ∈ range a.h, (rfft2 a).at_ u v * (starRingEnd ℂ) ((rfft2 b).at_ u v)
        * cis ((u : ℝ) * Y / a.h)) * cis ((v : ℝ) * X / a.w)).re =
      (a.h : ℝ) * ∑ k ∈ range a.h, ∑ l ∈ range a.w, ∑ j ∈ range a.w,
        b.px k l * a.px ((k + Y) % a.h) j * (cis ((v : ℝ) * (((l + X : ℕ) : ℤ) - (j : ℤ) : ℤ) / a.w)).re := by
    intro v
    rw [rows_sum a b h1 h2 hh, mul_assoc]
    have : (∑ k ∈ range a.h, ∑ l ∈ range a.w, ∑ j ∈ range a.w,
        ((b.px k l * a.px ((k + Y) % a.h) j : ℝ) : ℂ) * cis ((v : ℝ) * ((l : ℝ) - j) / a.w)) * cis ((v : ℝ) * X / a.w)
        = ∑ k ∈ range a.h, ∑ l ∈ range a.w, ∑ j ∈ range a.w,
        ((b.px k l * a.px ((k + Y) % a.h) j : ℝ) : ℂ) * cis ((v : ℝ) * (((l + X : ℕ) : ℤ) - (j : ℤ) : ℤ) / a.w) := by
      rw [sum_mul]; apply sum_congr rfl; intro k _
      rw [sum_mul]; apply sum_congr rfl; intro l _
      rw [sum_mul]; apply sum_congr rfl; intro j _
      have e1 : (v : ℝ) * ((((l + X : ℕ) : ℤ) - (j : ℤ) : ℤ) : ℝ) / a.w
        = (v : ℝ) * ((l : ℝ) - j) / a.w + (v : ℝ) * X / a.w := by push_cast; ring
      rw [e1, cis_add]; ring
    rw [this]
    rw [show ((a.h : ℂ)) = ((a.h : ℝ) : ℂ) by norm_cast, Complex.re_ofReal_mul]
    simp only [Complex.re_sum, Complex.re_ofReal_mul]
  simp_rw [hr]
  have hsw : ∑ v ∈ range (a.w / 2 + 1), colWeight (a.w / 2 + 1) v * ((a.h : ℝ) * ∑ k ∈ range a.h, ∑ l ∈ range a.w,
      ∑ j ∈ range a.w, b.px k l * a.px ((k + Y) % a.h) j * (cis ((v : ℝ) * (((l + X : ℕ) : ℤ) - (j : ℤ) : ℤ) / a.w)).re)
      = (a.h : ℝ) * ∑ k ∈ range a.h, ∑ l ∈ range a.w, ∑ j ∈ range a.w, b.px k l * a.px ((k + Y) % a.h) j *
        ∑ v ∈ range (a.w / 2 + 1), colWeight (a.w / 2 + 1) v * (cis ((v : ℝ) * (((l + X : ℕ) : ℤ) - (j : ℤ) : ℤ) / a.w)).re := by
    have : ∀ v ∈ range (a.w / 2 + 1), colWeight (a.w / 2 + 1) v * ((a.h : ℝ) * ∑ k ∈ range a.h, ∑ l ∈ range a.w,
      ∑ j ∈ range a.w, b.px k l * a.px ((k + Y) % a.h) j * (cis ((v : ℝ) * (((l + X : ℕ) : ℤ) - (j : ℤ) : ℤ) / a.w)).re)
      = (a.h : ℝ) * ∑ k ∈ range a.h, ∑ l ∈ range a.w, ∑ j ∈ range a.w, b.px k l * a.px ((k + Y) % a.h) j *
        (colWeight (a.w / 2 + 1) v * (cis ((v : ℝ) * (((l + X : ℕ) : ℤ) - (j : ℤ) : ℤ) / a.w)).re) := by
      intro v _
      rw [mul_left_comm, mul_sum]
      congr 1
      apply sum_congr rfl; intro k _
      rw [mul_sum]; apply sum_congr rfl; intro l _
      rw [mul_sum]; apply sum_congr rfl; intro j _
      ring
    rw [sum_congr rfl this, ← mul_sum]
    congr 1
    rw [sum_comm]; apply sum_congr rfl; intro k _
    rw [sum_comm]; apply sum_congr rfl; intro l _
    rw [sum_comm]; apply sum_congr rfl; intro j _
    rw [mul_sum]
  rw [hsw]
  have hhalf : ∀ q : ℤ, ∑ v ∈ range (a.w / 2 + 1), colWeight (a.w / 2 + 1) v * (cis ((v : ℝ) * q / a.w)).re
      = if (a.w : ℤ) ∣ q then (a.w : ℝ) else 0 := by
    intro q
    have := sum_half m hm0 q
    rw [← hm] at this
    rw [hdiv]; exact this
  simp_rw [hhalf]
  have hsel : ∀ k ∈ range a.h, ∀ l ∈ range a.w, (∑ j ∈ range a.w, b.px k l * a.px ((k + Y) % a.h) j *
      (if (a.w : ℤ) ∣ (((l + X : ℕ) : ℤ) - (j : ℤ)) then (a.w : ℝ) else 0)) =
      a.w * (b.px k l * a.px ((k + Y) % a.h) ((l + X) % a.w)) := by
    intro k _ l _
    have := sum_residue a.w hw (l + X) (fun j => a.w * (b.px k l * a.px ((k + Y) % a.h) j))
    rw [← this]
    apply sum_congr rfl; intro j _
    split_ifs <;> ring
  rw [sum_congr rfl fun k hk => sum_congr rfl fun l hl => hsel k hk l hl]
  simp_rw [← mul_sum]
  have ha : (a.h : ℝ) ≠ 0 := by positivity
  have hb : (a.w : ℝ) ≠ 0 := by positivity
  field_simp

/-- Odd widths: the result is one column too narrow. -/
theorem xcorr_odd (a b : Img) (h1 : b.h = a.h) (h2 : b.w = a.w) (hh : 0 < a.h) (ho : a.w % 2 = 1) :
    (a.w = 1 → xcorr a b = none) ∧ (1 < a.w → ∃ c, xcorr a b = some c ∧ c.h = a.h ∧ c.w = a.w - 1) := by
  unfold xcorr
  have hsome : (rfft2 a).mulConj (rfft2 b) = some ⟨a.h, a.w / 2 + 1,
      fun u v => (rfft2 a).at_ u v * (starRingEnd ℂ) ((rfft2 b).at_ u v)⟩ := by
    unfold Half.mulConj
    rw [if_pos ⟨by simp [rfft2, h1], by simp [rfft2, h2]⟩]
    rfl
  rw [hsome]
  unfold irfft2
  simp only [Option.bind_some]
  constructor
  · intro h
    rw [if_pos (by right; omega)]; rfl
  · intro h
    rw [if_neg (by omega)]
    refine ⟨_, rfl, rfl, ?_⟩
    simp [fftshift2]; omega

end Verif.Fft
